{"id": "C01", "title": "GC keeps every reachable object intact", "statement": "After a garbage collection, every handle that can be reached from a root (root stack, environment root stack, persistent roots, symbol registry, extra roots of the caller) by following references stored in heap cells is still valid and denotes exactly the same cell contents as before.", "quantifier": "every heap graph (cyclic, shared, arbitrarily deep) and every set of roots", "why_tests_cant": "a test can only try a few graph shapes; marking must be complete for all of them", "anchors": ["vm-js/src/heap.rs: Heap::collect_garbage, collect_garbage_with_extra_roots, Tracer"]}
{"id": "C02", "title": "GC frees exactly the unreachable cells", "statement": "After a garbage collection every handle that was not reachable from a root is invalid, its slot is on the free list, and used bytes has decreased by exactly the sum of the freed cells' sizes.", "quantifier": "every heap graph and root set", "why_tests_cant": "leaks show only on particular graphs; exactness is a statement over all graphs", "anchors": ["vm-js/src/heap.rs: Heap::collect_garbage_with_extra_roots, Heap::used_bytes, Heap::is_valid_*"]}
{"id": "C03", "title": "A stale handle never denotes a newer object", "statement": "Once a handle has become invalid because its cell was freed, no later sequence of allocations and collections makes it valid again, as long as its slot has been freed fewer than 2^32 times; with 2^32 frees of the same slot it can alias (generation wraps).", "quantifier": "all histories of allocate / root / unroot / collect operations", "why_tests_cant": "ABA problems need particular long histories of slot reuse", "anchors": ["vm-js/src/heap.rs: Heap::validate, alloc_unchecked, collect_garbage_with_extra_roots", "vm-js/src/handle.rs: HeapId"]}
{"id": "C04", "title": "Heap byte accounting and limit", "statement": "At all times Heap::used_bytes equals the sum of the recorded sizes of live cells, an allocation that succeeds never leaves estimated usage above the configured maximum, and an allocation that is refused leaves every live cell unchanged.", "quantifier": "all histories of allocations, resizes and collections, all limits", "why_tests_cant": "drift accumulates over histories; the limit has to hold after each of infinitely many histories", "anchors": ["vm-js/src/heap.rs: Heap::used_bytes, ensure_can_allocate, ensure_can_allocate_with_extra_roots, alloc_unchecked, update_slot_bytes"]}
{"id": "C05", "title": "Persistent roots are independent cells", "statement": "add_root/set_root/get_root/remove_root behave as a finite map from live root ids to values: get returns the value most recently stored under that id, operations on one id never affect another live id, and removal makes get return None until the id is handed out again.", "quantifier": "all interleavings of the four operations and of collections", "why_tests_cant": "interference needs particular free-list histories", "anchors": ["vm-js/src/heap.rs: Heap::add_root, get_root, set_root, remove_root, RootId"]}
{"id": "C06", "title": "Scopes restore the root stack", "statement": "When a Scope (and every child scope) ends, the stack of temporary roots is exactly what it was when the scope was created, and everything pushed inside the scope was protected from collection while the scope was open.", "quantifier": "all properly nested sequences of scope open/close, push_root and collections", "why_tests_cant": "nesting depth and order are unbounded", "anchors": ["vm-js/src/heap.rs: Scope, Scope::reborrow, Scope::push_root, impl Drop for Scope"]}
{"id": "C07", "title": "Symbol.for is a stable injective registry", "statement": "symbol_for with the same key text always returns the same symbol, with different key texts different symbols, and this still holds after any number of collections.", "quantifier": "all sequences of symbol_for calls and collections", "why_tests_cant": "needs all histories and all strings", "anchors": ["vm-js/src/heap.rs: symbol_for, symbol_registry_get, symbol_registry_insert"]}
{"id": "C08", "title": "Prototype chains stay finite", "statement": "object_set_prototype refuses every assignment that would create a cycle, so from any heap whose prototype chains are acyclic every sequence of successful set-prototype calls leaves all chains acyclic; hence property lookup terminates.", "quantifier": "all sequences of prototype assignments on all heaps", "why_tests_cant": "a cycle needs a particular sequence of assignments", "anchors": ["vm-js/src/heap.rs: object_set_prototype, get_property, MAX_PROTOTYPE_CHAIN"]}
{"id": "C09", "title": "Property definition follows ValidateAndApplyPropertyDescriptor", "statement": "define_own_property on an ordinary object accepts and rejects exactly the descriptors the ECMAScript algorithm accepts and rejects, and on acceptance leaves the property with exactly the attributes that algorithm prescribes.", "quantifier": "every current property (absent, data, accessor), extensibility flag and descriptor patch, over all values", "why_tests_cant": "the descriptor space is a product of optional fields over an infinite value domain", "anchors": ["vm-js/src/object_ops.rs: validate_and_apply_property_descriptor, ordinary_define_own_property", "vm-js/src/property.rs: PropertyDescriptorPatch"]}
{"id": "C10", "title": "Non-configurable properties are frozen in place", "statement": "Whatever sequence of define, set, delete and prevent-extensions operations is applied, a non-configurable property is never deleted, never changes between data and accessor, never changes its enumerability, and if it is a non-writable data property its value never changes.", "quantifier": "all operation sequences on all objects", "why_tests_cant": "an invariant over all histories", "anchors": ["vm-js/src/object_ops.rs: ordinary_define_own_property, ordinary_delete, ordinary_set"]}
{"id": "C11", "title": "Array length always exceeds every index", "statement": "After any sequence of element definitions, length writes and deletions in which no length write runs out of memory, an array's length is greater than each of its element indices; reducing length removes exactly the elements at or above the new length unless a non-configurable element stops it, in which case length becomes that index + 1.", "quantifier": "all operation sequences on arrays", "why_tests_cant": "an invariant over all histories with unbounded indices", "anchors": ["vm-js/src/object_ops.rs: array_define_own_property, array_set_length", "vm-js/src/heap.rs: array helpers"]}
{"id": "C12", "title": "Own keys are listed in ECMAScript order", "statement": "own_property_keys lists array-index keys in ascending numeric order, then other string keys in creation order, then symbols in creation order, each own key exactly once. (Objects allocated with an initial property list: provided that list names no key twice.)", "quantifier": "all objects", "why_tests_cant": "needs all key sets and creation orders", "anchors": ["vm-js/src/heap.rs: own_property_keys"]}
{"id": "C13", "title": "Array-index recognition is exact", "statement": "A property key string is treated as array index n iff it is the canonical decimal numeral of n and n <= 2^32-2.", "quantifier": "all UTF-16 strings", "why_tests_cant": "the domain is infinite; boundary bugs (leading zero, overflow) hide in it", "anchors": ["vm-js/src/heap.rs: string_to_array_index"]}
{"id": "C14", "title": "Lexical bindings: TDZ, initialise once, const", "statement": "Reading a binding before it is initialised fails, initialising twice fails, after initialisation reads return the last value assigned, and assigning an immutable binding always fails and changes nothing.", "quantifier": "all sequences of create/initialise/get/set on an environment", "why_tests_cant": "temporal properties over all histories", "anchors": ["vm-js/src/heap.rs: env_initialize_binding, env_get_binding_value, env_set_mutable_binding", "vm-js/src/env.rs"]}
{"id": "C15", "title": "Microtasks run in FIFO order, once, to exhaustion", "statement": "A microtask checkpoint runs every queued job exactly once in the order queued, including jobs queued while draining, before returning; a nested checkpoint does nothing; a failing job does not stop later ones.", "quantifier": "all programs of jobs that queue further jobs", "why_tests_cant": "schedules are unbounded and jobs are re-entrant", "anchors": ["vm-js/src/microtasks.rs: MicrotaskQueue::perform_microtask_checkpoint", "vm-js/src/job_queue.rs"]}
{"id": "C16", "title": "A promise settles at most once", "statement": "After a promise is fulfilled or rejected through its resolving path its state and result never change again, each reaction registered while pending is handed out exactly once, at settlement, in registration order.", "quantifier": "all interleavings of then/resolve/reject", "why_tests_cant": "an invariant over all histories", "anchors": ["vm-js/src/heap.rs: promise_settle_and_take_reactions, promise_append_reaction", "vm-js/src/promise_ops.rs", "vm-js/src/promise.rs"]}
{"id": "C17", "title": "Unhandled rejections are reported exactly when nobody handled them", "statement": "The rejection tracker reports to the host exactly the promises that were rejected without a handler and still have none at the checkpoint, and reports rejectionhandled exactly for those that were reported before and handled afterwards.", "quantifier": "all interleavings of reject, handle and checkpoint events", "why_tests_cant": "depends on the whole history", "anchors": ["vm-js/src/promise_rejection_tracker.rs: PromiseRejectionTracker"]}
{"id": "C18", "title": "BigInt arithmetic is exact or an explicit range error", "statement": "Addition, multiplication and negation of BigInts return the mathematically exact integer whenever they return a value, zero has one representation, and decimal conversion followed by parsing gives the same integer.", "quantifier": "all BigInt values", "why_tests_cant": "256-bit operand space", "anchors": ["vm-js/src/value.rs: JsBigInt"]}
{"id": "C19", "title": "String order and equality are by UTF-16 code units", "statement": "Comparing two JS strings is a total order equal to lexicographic order of their UTF-16 code units; equal strings have equal hashes.", "quantifier": "all pairs/triples of UTF-16 strings, including lone surrogates", "why_tests_cant": "infinite domain", "anchors": ["vm-js/src/string.rs: JsString"]}
{"id": "C20", "title": "Line/column lookup inverts offsets", "statement": "For every source text and offset, the reported 1-based line and column identify that offset (clamped to the end): the line is one more than the number of newlines before it and the column one more than the distance to the start of the line.", "quantifier": "all texts and offsets", "why_tests_cant": "infinite domain, boundary cases at newlines and end", "anchors": ["vm-js/src/source.rs: SourceText::line_col"]}
{"id": "C21", "title": "Import-attribute order does not matter", "statement": "Two module requests are equal iff they have the same specifier and the same set of import attributes, regardless of the order of attributes; equality is an equivalence relation on requests without duplicate attribute keys.", "quantifier": "all pairs of requests", "why_tests_cant": "infinite domain; duplicates break symmetry", "anchors": ["vm-js/src/module_request.rs: ModuleRequest, module_requests_equal"]}
{"id": "C22", "title": "ResolveExport is right on every module graph", "statement": "Export resolution terminates on every (possibly cyclic) module graph, and agrees with the ECMAScript ResolveExport relation: a resolved binding names an existing local export, star exports never provide 'default', and conflicting stars are ambiguous.", "quantifier": "all finite module graphs, including cyclic star and indirect exports", "why_tests_cant": "graph shapes are unbounded and cycles make naive recursion diverge", "anchors": ["vm-js/src/module_record.rs: resolve_export, resolve_export_with_set"]}
{"id": "C23", "title": "Exported names are complete and duplicate-free", "statement": "GetExportedNames terminates on cyclic graphs and returns exactly the local and indirect export names plus the names star-exported modules contribute, never 'default' through a star.", "quantifier": "all finite module graphs", "why_tests_cant": "unbounded graph shapes", "anchors": ["vm-js/src/module_record.rs: get_exported_names, get_exported_names_with_star_set", "vm-js/src/module_graph.rs: get_module_namespace"]}
{"id": "C24", "title": "Fuel bounds execution exactly", "statement": "With fuel n exactly n ticks succeed and every later tick fails with OutOfFuel; the interrupt flag fails the very next tick; a deadline is noticed within check_time_every ticks; installing a nested budget and dropping its guard restores the outer budget exactly.", "quantifier": "all budgets, clocks, interrupt times and nestings", "why_tests_cant": "schedules of interrupts and clock readings are unbounded", "anchors": ["vm-js/src/vm.rs: Vm::tick, Budget, BudgetState, BudgetGuard"]}
{"id": "C25", "title": "Call depth never exceeds the limit", "statement": "The VM's frame stack never grows beyond max_stack_depth, a push beyond it fails with StackOverflow and leaves the stack unchanged, and matched push/pop pairs leave the stack as it was.", "quantifier": "all sequences of pushes and pops", "why_tests_cant": "unbounded histories", "anchors": ["vm-js/src/vm.rs: Vm::push_frame, pop_frame, enter_frame"]}
{"id": "C26", "title": "CFG edges are symmetric", "statement": "After any sequence of connect, disconnect, pop and contract, a is a parent of b iff b is a child of a, and contract preserves reachability between the remaining nodes.", "quantifier": "all operation sequences on all graphs", "why_tests_cant": "invariant over all histories", "anchors": ["optimize-js/src/graph/mod.rs: Graph"]}
{"id": "C27", "title": "Unreachable-block detection is exact", "statement": "find_unreachable returns exactly the nodes of the control-flow graph that cannot be reached from the entry, and removing them leaves exactly the reachable subgraph and removes exactly the blocks reported.", "quantifier": "all graphs", "why_tests_cant": "graph shapes are unbounded", "anchors": ["optimize-js/src/cfg/cfg.rs: CfgGraph::find_unreachable, delete_many"]}
{"id": "C28", "title": "Dominators are the true dominators", "statement": "Dom::calculate gives each reachable block the immediate dominator of the path-based definition: every path from the entry passes through it, and every other strict dominator dominates it.", "quantifier": "all rooted control-flow graphs, including irreducible ones", "why_tests_cant": "the algorithm iterates to a fixpoint; correctness is over all graphs", "anchors": ["optimize-js/src/dom/mod.rs: Dom::calculate, intersect"]}
{"id": "C29", "title": "Dataflow analyses reach the least fixpoint", "statement": "run_dataflow terminates and returns a state satisfying the dataflow equations of every reachable block.", "quantifier": "all graphs, all monotone transfer functions over finite-height lattices", "why_tests_cant": "fixpoints over all graphs and lattices", "anchors": ["optimize-js/src/analysis/dataflow.rs", "optimize-js/src/analysis/liveness.rs"]}
{"id": "C30", "title": "Register allocation never merges interfering temporaries", "statement": "Two temporaries that interfere never get the same register, every temporary gets a register, and renumbering registers preserves this.", "quantifier": "all interference graphs", "why_tests_cant": "graph colouring over unbounded graphs", "anchors": ["optimize-js/src/analysis/registers.rs: allocate_registers", "optimize-js/src/decompile/regalloc.rs: normalise_registers"]}
{"id": "C31", "title": "Leaving SSA preserves phi semantics", "statement": "The copies inserted for phi nodes on each incoming edge have the effect of the parallel assignment the phis denote.", "quantifier": "all lists of phi nodes and all variable stores", "why_tests_cant": "the swap and lost-copy problems depend on the phi arrangement", "anchors": ["optimize-js/src/ssa/ssa_deconstruct.rs: deconstruct_ssa"]}
{"id": "C32", "title": "Dead-code and copy elimination preserve values", "statement": "Removing instructions whose results are unused and replacing copies by their sources leaves every remaining observation (calls, stores, branch conditions, returns) with the same values.", "quantifier": "all programs and all inputs", "why_tests_cant": "translation correctness over all programs", "anchors": ["optimize-js/src/opt/optpass_trivial_dce.rs", "optimize-js/src/opt/optpass_redundant_assigns.rs"]}
{"id": "C33", "title": "Value numbering only reuses values that are still equal", "statement": "When DVN replaces an instruction by an earlier result, that result equals what the instruction would have computed.", "quantifier": "all straight-line programs with property reads and writes", "why_tests_cant": "depends on intervening effects", "anchors": ["optimize-js/src/opt/optpass_dvn.rs"]}
{"id": "C34", "title": "Compile-time evaluation agrees with JavaScript", "statement": "When the optimizer folds a constant expression the folded constant is the value ECMAScript prescribes: for truthiness, string-to-number and string-to-BigInt conversion, int32/uint32 conversion, bitwise operators and shifts, arithmetic, loose/strict equality, order comparison, concatenation, typeof, and the rounding functions of Math; and the folding does not abort the compiler.", "quantifier": "all constant operands", "why_tests_cant": "infinite operand space", "anchors": ["optimize-js/src/eval/consteval.rs"]}
{"id": "C35", "title": "Emitted string literals read back as the same string", "statement": "For every string and quote style, the emitted string literal is a single valid JS string literal token whose value is the original string.", "quantifier": "all strings of Unicode scalar values, all quote styles", "why_tests_cant": "infinite domain with context-dependent escapes (\\0 before digits)", "anchors": ["emit-js/src/escape.rs: emit_string_literal, escape_string_into"]}
{"id": "C36", "title": "Emitted template segments read back as the same text", "statement": "For every cooked template segment the emitted text contains no unescaped backtick, no interpolation start and decodes to the same segment.", "quantifier": "all strings", "why_tests_cant": "infinite domain", "anchors": ["emit-js/src/escape.rs: emit_template_literal_segment"]}
{"id": "C37", "title": "Parenthesisation preserves the expression tree", "statement": "Printing an operator expression with the minimal parentheses the emitter inserts and parsing it back with the parser's precedence and associativity gives the same tree.", "quantifier": "all operator expression trees", "why_tests_cant": "tree shapes are unbounded", "anchors": ["emit-js/src/precedence.rs", "parse-js/src/operator.rs", "parse-js/src/parse/expr"]}
{"id": "C38", "title": "Omitting semicolons never joins statements", "statement": "When the emitter leaves out a statement terminator, automatic semicolon insertion or the closing brace still separates the statements: the printed program is read back statement by statement, in both separator styles.", "quantifier": "all programs of the statements this emitter supports, both styles", "why_tests_cant": "needs all combinations of statement ends and starts", "anchors": ["emit-js/src/asi.rs", "emit-js/src/js_stmt.rs", "parse-js/src/parse/stmt/mod.rs"]}
{"id": "C39", "title": "Renaming never captures or merges variables", "statement": "After renaming, every identifier reference resolves, by lexical scoping on the new names, to the same declaration as before, no two variables of one scope share a name, and no renamed variable shadows a global the code uses.", "quantifier": "all scope trees, symbol uses and reserved sets", "why_tests_cant": "capture needs a particular combination of scopes and uses", "anchors": ["minify-js/src/rename/mod.rs: assign_names, assign_scope, UsageData"]}
{"id": "C40", "title": "Generated names are valid, fresh and injective", "statement": "The short-name generator returns a syntactically valid identifier that is not reserved and not in use, never loops forever, and distinct counters give distinct names.", "quantifier": "all counters and all finite sets of unavailable names", "why_tests_cant": "infinite domain", "anchors": ["minify-js/src/rename/mod.rs: NameGenerator::encode, next_name"]}
{"id": "C41", "title": "Source rewriting changes exactly the renamed spans", "statement": "Applying a set of non-overlapping replacements changes exactly those byte ranges, in order, and copies everything else.", "quantifier": "all sources and all non-overlapping replacement sets in any order", "why_tests_cant": "infinite domain", "anchors": ["minify-js/src/rename/mod.rs: rewrite_source / apply_renames"]}
{"id": "C42", "title": "Decompiler names are unique and valid", "statement": "NameMangler never returns the same identifier for two different requests, never returns a reserved name, is stable per register, and always returns a valid identifier.", "quantifier": "all sequences of fresh / name_for_reg / name_for_foreign calls", "why_tests_cant": "history-dependent collisions", "anchors": ["optimize-js/src/decompile/names.rs: NameMangler"]}
{"id": "C43", "title": "Diagnostics order is canonical", "statement": "Sorting diagnostics gives a result that does not depend on the order in which they were produced (up to diagnostics that compare equal), and the comparison is a total preorder.", "quantifier": "all lists of diagnostics and all permutations", "why_tests_cant": "permutations of unbounded lists", "anchors": ["diagnostics/src/lib.rs: sort_diagnostics, diagnostic_cmp"]}
{"id": "C44", "title": "Shards partition the test list", "statement": "For every shard count n>0 each test belongs to exactly one of the shards 0..n-1, order is preserved, shard sizes differ by at most one, and 'i/n' parses iff i<n.", "quantifier": "all test lists and shard counts", "why_tests_cant": "infinite domain", "anchors": ["conformance-harness/src/shard.rs"]}
{"id": "C45", "title": "Expectation lookup precedence", "statement": "Looking up a test id returns the first exact entry if any, else the first glob match, else the first regex match, else the default; each manifest entry must have exactly one matcher.", "quantifier": "all manifests and ids", "why_tests_cant": "all orders and overlaps of entries", "anchors": ["conformance-harness/src/expectations.rs"]}
{"id": "C46", "title": "Locations merge as intervals and convert without silent truncation", "statement": "Merging source locations gives the smallest interval covering both (associative, commutative, idempotent); converting to 32-bit offsets is exact when it reports no overflow and saturates otherwise.", "quantifier": "all locations", "why_tests_cant": "full machine-word domain", "anchors": ["parse-js/src/loc.rs", "diagnostics/src/lib.rs: TextRange"]}
{"id": "C47", "title": "Interning is injective and stable", "statement": "Interning equal values returns equal ids, different values different ids (even under hash collisions), and an id once returned always denotes the same value.", "quantifier": "all interning histories and all fingerprint functions with enough distinct salts", "why_tests_cant": "collisions are unreachable by tests without a contrived hash", "anchors": ["types-ts-interned/src/store.rs: insert_with_collision, NameInterner::intern"]}
{"id": "C48", "title": "Union and intersection types are canonical", "statement": "Constructing a union (intersection) does not depend on the order or repetition of its members, flattens nested ones, absorbs never/any/unknown, and canonicalising twice changes nothing.", "quantifier": "all member lists", "why_tests_cant": "unbounded member lists and nestings", "anchors": ["types-ts-interned/src/store.rs: union, intersection, canon, sort_and_dedup"]}
{"id": "C49", "title": "No dangling handles", "statement": "After any sequence of heap API calls whose handle arguments are valid (and rooted where the call may collect first), no live cell and no root contains a handle that is invalid.", "quantifier": "all histories of allocations, writes, root operations, prototype changes, symbol_for calls and collections", "why_tests_cant": "A missed trace edge or a missing temporary root corrupts memory only for a particular interleaving of allocation and collection; the space of interleavings and graphs is unbounded.", "anchors": ["vm-js/src/heap.rs: Heap::collect_garbage_with_extra_roots", "vm-js/src/heap.rs: Scope::alloc_object_with_properties", "vm-js/src/heap.rs: Heap::symbol_for"]}
{"id": "C50", "title": "Preventing extensions is permanent", "statement": "Once an object has been made non-extensible it stays non-extensible and never gains an own property, whatever operations follow, on ordinary objects and arrays alike.", "quantifier": "all operation sequences on all objects", "why_tests_cant": "an invariant over all histories, including element writes that would grow an array", "anchors": ["vm-js/src/object_ops.rs: object_prevent_extensions, define_own_property, ordinary_set"]}
{"id": "C51", "title": "No promise job queued by a script is lost", "statement": "Every promise job queued while a script runs is still queued when the script ends, after those queued before, and is run by a later microtask checkpoint.", "quantifier": "all scripts, including those that call accessors, and all prior queues", "why_tests_cant": "depends on which of the engine's internal call paths the job is queued from, over all programs", "anchors": ["vm-js/src/vm.rs: Vm::call, Vm::call_without_host", "vm-js/src/exec.rs: exec_script_source_with_host", "vm-js/src/object_ops.rs: ordinary_get, ordinary_set"]}
{"id": "C52", "title": "The VM's own checkpoint runs jobs in queue order", "statement": "Vm::perform_microtask_checkpoint runs every queued job exactly once in the order queued, including jobs queued while draining, and returns the first error.", "quantifier": "all programs of jobs that queue further jobs through any of the engine's call paths", "why_tests_cant": "schedules are unbounded and jobs are re-entrant", "anchors": ["vm-js/src/vm.rs: Vm::perform_microtask_checkpoint, Vm::call_without_host"]}
{"id": "C53", "title": "Namespace exports are the sorted unambiguous names", "statement": "The export list of a module namespace contains exactly the names under which the module provides one and only one binding, in ascending UTF-16 code unit order and without repetition.", "quantifier": "all finite module graphs, cyclic or not", "why_tests_cant": "unbounded graph shapes; ordering over all Unicode names", "anchors": ["vm-js/src/module_graph.rs: get_module_namespace", "vm-js/src/module_record.rs: get_exported_names, resolve_export"]}
{"id": "C54", "title": "Linking by specifier is first-registration-wins", "statement": "After link_all_by_specifier every attribute-free request of every module leads to the module registered first under that specifier, and a request with attributes leads to no module.", "quantifier": "all registration lists and module graphs", "why_tests_cant": "unbounded registration orders and request sets", "anchors": ["vm-js/src/module_graph.rs: link_all_by_specifier, resolve_host_module"]}
{"id": "C55", "title": "A module record lists the exports of its source", "statement": "The local, indirect and star export entries and the requested modules of a parsed module are those of ECMA-262 ParseModule for its import and export items.", "quantifier": "all lists of import/export items", "why_tests_cant": "all combinations of imports and exports, in particular re-exported imports", "anchors": ["vm-js/src/module_record.rs: SourceTextModuleRecord::parse"]}
{"id": "C56", "title": "Loading a module graph settles exactly once, for a reason", "statement": "Whatever the host does and in whatever order it answers, synchronously or later, with any number of overlapping loads: every call returns; once the host has answered everything it was asked on behalf of a load, the load's promise is settled; it is settled at most once; it is rejected with the first error reported for it (host error, conflicting answer, unsupported attribute, unknown module) and otherwise fulfilled when nothing is left to do.", "quantifier": "all hosts, answer orders, re-entrancy patterns and overlapping loads", "why_tests_cant": "schedules are unbounded and callbacks re-entrant", "anchors": ["vm-js/src/module_loading.rs: load_requested_modules, inner_module_loading, continue_module_loading, finish_loading_imported_module"]}
{"id": "C57", "title": "A fulfilled load means the whole graph is loaded", "statement": "If the promise returned by load_requested_modules is fulfilled, every module reachable from the requested module through its requests exists, is no longer New, and each of its requests leads to a module, now and for ever after, even if overlapping loads share modules.", "quantifier": "all hosts, schedules and module graphs, cyclic ones included", "why_tests_cant": "unbounded graphs and interleavings", "anchors": ["vm-js/src/module_loading.rs: inner_module_loading, finish_loading_imported_module"]}
{"id": "C58", "title": "The host is asked once per request and only when needed", "statement": "During one load the host is asked for each listed request of a module at most once, and only if no module is recorded for the request and its attributes are supported.", "quantifier": "all hosts, schedules and module graphs", "why_tests_cant": "unbounded graphs and interleavings", "anchors": ["vm-js/src/module_loading.rs: inner_module_loading, all_import_attributes_supported"]}
{"id": "C59", "title": "Postorder is a depth-first postorder", "statement": "The postorder of a control-flow graph lists exactly the nodes reachable from the entry, each once and the entry last; every other node has a predecessor later in the list, and a successor that is not earlier in the list lies on a cycle with its predecessor.", "quantifier": "all graphs and entries", "why_tests_cant": "graph shapes are unbounded", "anchors": ["optimize-js/src/graph/mod.rs: Graph::calculate_postorder", "optimize-js/src/cfg/cfg.rs: CfgGraph::calculate_postorder"]}
{"id": "C60", "title": "Dominance queries answer by the definition", "statement": "dominates, dominated_by, immediately_dominated_by, lca and lca_all agree with dominance defined over all paths from the entry: dominates(a, b) iff b is reachable and every path to b visits a, and lca is the nearest common dominator.", "quantifier": "all graphs, entries and nodes", "why_tests_cant": "paths and graphs are unbounded", "anchors": ["optimize-js/src/dom/mod.rs: dominated_by_graph, dominates_graph, immediately_dominated_by, lca, lca_all"]}
{"id": "C61", "title": "Dominance frontiers are exact", "statement": "For a control-flow graph without unreachable blocks whose entry has no predecessor, b is in the computed dominance frontier of a iff a dominates a predecessor of b and does not strictly dominate b.", "quantifier": "all such graphs", "why_tests_cant": "paths and graphs are unbounded", "anchors": ["optimize-js/src/dom/mod.rs: dominance_frontiers"]}
{"id": "C62", "title": "Loops found are the natural loops", "statement": "find_loops returns one entry for each block that is the target of a back edge, and lists for it exactly the blocks of its natural loop: the header and the blocks that can reach the source of one of its back edges without passing through the header.", "quantifier": "all graphs, irreducible ones included", "why_tests_cant": "paths and graphs are unbounded", "anchors": ["optimize-js/src/analysis/find_loops.rs: find_loops"]}
{"id": "C63", "title": "String literals are read as ECMA-262 says", "statement": "For every source text, a string literal of ECMA-262 is read as one token of exactly its text with the code units ECMA-262 assigns to it, a legacy escape is reported exactly for literals strict code does not have, and everything else is a syntax error.", "quantifier": "all source texts, all literals", "why_tests_cant": "infinite grammar with look-ahead dependent escapes", "anchors": ["parse-js/src/lex/mod.rs: lex_string", "parse-js/src/parse/expr/lit.rs: decode_literal_utf16, find_legacy_escape_sequence, lit_str_val"]}
{"id": "C64", "title": "Template parts are read as ECMA-262 says", "statement": "For every source text, each string part of a template ends at its unescaped backtick or ${ and gets the raw and cooked strings ECMA-262 assigns to it; a tagged template has no cooked string exactly when ECMA-262 gives it none, and an untagged one is then an error.", "quantifier": "all source texts, tagged and untagged templates", "why_tests_cant": "infinite grammar", "anchors": ["parse-js/src/lex/mod.rs: lex_template_string_continue", "parse-js/src/parse/expr/lit.rs: template_content, lit_template_parts_with_invalid_escape"]}
{"id": "C65", "title": "Names that run-time code can observe are not renamed", "statement": "Variables of every scope that a direct eval can see, of scopes affected by a with statement, variables used inside a with, and exported declarations keep their names when the program is minified.", "quantifier": "all scope trees, placements of eval, with and export, and symbol uses", "why_tests_cant": "depends on combinations of nested scopes and uses", "anchors": ["minify-js/src/rename/mod.rs: assign_names, collect_usages, ScopeHazards"]}
{"id": "C66", "title": "Unions and intersections mean what they say", "statement": "Under the reading of types as sets of values, the type returned for a union (intersection) of known types has exactly the values that some (every) member has, whatever simplifications were made, and goes on having them as the store grows.", "quantifier": "all stores a program can build, all fingerprint functions, all member lists", "why_tests_cant": "simplifications interact over unbounded member lists and nestings", "anchors": ["types-ts-interned/src/store.rs: union, intersection, canon"]}
{"id": "C67", "title": "Snapshots of the type store restore it", "statement": "Restoring the snapshot of a type store succeeds; every identifier denotes in the restored store what it denoted before, types compare the same, and every further sequence of interning operations returns the identifiers it would have returned in the original. The snapshot depends only on what identifiers denote, not on the order of interning.", "quantifier": "all stores a program can build, all fingerprint functions, all later operations", "why_tests_cant": "depends on collision chains and on arbitrary later histories", "anchors": ["types-ts-interned/src/store.rs: snapshot, from_snapshot, insert_with_expected_id"]}
{"id": "C68", "title": "Object shapes do not depend on the order of their members", "statement": "Interning an object shape does not depend on the order in which properties, signatures and index signatures are listed, and the result has exactly one property for each key and one index signature for each key type.", "quantifier": "all stores a program can build, all shapes of known types", "why_tests_cant": "unbounded member lists with duplicates", "anchors": ["types-ts-interned/src/store.rs: intern_shape, PropKey::cmp_with"]}
{"id": "C69", "title": "Neighbouring tokens do not run together", "statement": "Whatever the emitter writes after one another, the text is split by the lexer into the tokens that were written: no two words, numbers or operators are joined into another token or into the start of a comment.", "quantifier": "all sequences of words, numbers, strings, regular expressions and punctuators", "why_tests_cant": "needs all pairs of adjacent tokens in every context", "anchors": ["emit-js/src/emitter.rs", "parse-js/src/lex/mod.rs"]}
{"id": "C70", "title": "Printed statements are read back", "statement": "Printing a program with the statement printer that writes all semicolons and parsing the text gives the same program: `else` stays with its `if`, bodies stay bodies, and no expression statement turns into a block or a declaration.", "quantifier": "all programs", "why_tests_cant": "statements nest without bound", "anchors": ["emit-js/src/stmt.rs", "parse-js/src/parse/stmt/mod.rs", "parse-js/src/parse/stmt/decl.rs"]}
{"id": "C71", "title": "Entering SSA keeps the meaning", "statement": "Placing phis and renaming variables gives a program in strict SSA form (every variable assigned once, every use passed by its definition on all paths, one phi entry for each predecessor) with the same blocks and edges, that makes the same calls and stores with the same values in the same order as the original program.", "quantifier": "all control-flow graphs and all interpretations of the operations", "why_tests_cant": "graphs, variables and runs are unbounded", "anchors": ["optimize-js/src/ssa/ssa_insert_phis.rs", "optimize-js/src/ssa/ssa_rename.rs", "optimize-js/src/ssa/phi_simplify.rs", "optimize-js/src/lib.rs: build_program_function"]}
{"id": "C72", "title": "Simplifying phis keeps the meaning", "statement": "Dropping phi entries for blocks that are no longer predecessors, and turning phis with one entry left into copies, never panics, reports a change exactly if it made one, leaves nothing for a second call to do, keeps the program in SSA form with one phi entry for each predecessor, and the program makes the same calls and stores with the same values in the same order.", "quantifier": "all programs in SSA form and all interpretations of the operations", "why_tests_cant": "graphs, phis and runs are unbounded", "anchors": ["optimize-js/src/ssa/phi_simplify.rs: simplify_phis", "optimize-js/src/opt/optpass_impossible_branches.rs"]}
{"id": "C73", "title": "Removing impossible branches keeps the meaning", "statement": "The pass that removes branches on constants and branches whose two targets are the same, together with the blocks that become unreachable, always ends without panic; afterwards no such branch is left, the program is in SSA form, and it passes through the same blocks with the same calls and stores as before.", "quantifier": "all programs in SSA form and all interpretations of the operations that agree with ToBoolean on constants", "why_tests_cant": "graphs, rounds of the pass and runs are unbounded", "anchors": ["optimize-js/src/opt/optpass_impossible_branches.rs", "optimize-js/src/eval/consteval.rs: coerce_to_bool", "optimize-js/src/ssa/phi_simplify.rs", "optimize-js/src/cfg/cfg.rs: find_and_pop_unreachable"]}
{"id": "C74", "title": "The control flow graph runs as the code does", "statement": "The list of instructions that the translation of a function makes becomes a control flow graph without panic; all its blocks can be reached, nothing jumps to its entry, and running the graph passes, block by block, through states of the list of instructions in order, with the same variables and the same calls and stores; it comes to its end exactly when the code does.  The graph can then be put into SSA form without panic and with the same calls and stores.", "quantifier": "all lists of instructions with labels, jumps and branches as the translation makes them; all interpretations of the operations; all runs, finite or not", "why_tests_cant": "code, graphs and runs are unbounded", "anchors": ["optimize-js/src/cfg/bblock.rs: convert_insts_to_bblocks", "optimize-js/src/cfg/cfg.rs: Cfg::from_bblocks, find_and_pop_unreachable", "optimize-js/src/lib.rs: build_program_function"]}
{"id": "C75", "title": "The instructions do what the source does", "statement": "The translation of a function body or script to the optimizer's instructions, when it accepts the source, has the meaning ECMA-262 gives the source: the same calls, property reads and writes, loads and stores of shared and global variables with the same operands in the same order, through conditionals, loops, switches, labelled break and continue, optional chains and logical assignments; it ends when the source does, with the same values in the local variables, and runs forever when the source does.  The result can always be turned into a control flow graph and put into SSA form without panic, with the same effects.", "quantifier": "all bodies built from the modelled statements and expressions; all interpretations of the operations; all runs, finite or not", "why_tests_cant": "programs, values and runs are unbounded", "anchors": ["optimize-js/src/il/s2i/mod.rs", "optimize-js/src/il/s2i/expr.rs: compile_expr_with_chain", "optimize-js/src/il/s2i/stmt.rs: compile_stmt, hoist_var_decls, translate_body"]}
{"id": "C76", "title": "Merging and removing blocks keeps the program", "statement": "The pass that merges chains of blocks, removes empty blocks, gives up an empty entry and joins empty exits ends on every program in SSA form without panic.  Its result is in SSA form, has the same effects in the same order, ends exactly if the first program does, and has nothing left to merge: no block but the entry is the only successor of its only predecessor, and no empty block but the entry has a successor other than itself.", "quantifier": "all programs in SSA form with complete phis; all interpretations of the operations; all runs, finite or not", "why_tests_cant": "programs and runs are unbounded", "anchors": ["optimize-js/src/opt/optpass_cfg_prune.rs: optpass_cfg_prune, maybe_reroot_entry, can_prune_bblock", "optimize-js/src/il/inst.rs: remove_phi, insert_phi"]}
{"id": "C77", "title": "The optimizer keeps the program", "statement": "Take any function body or script the optimizer accepts, and iterate its passes on it (value numbering with compile-time evaluation, removal of dead code and copies, of branches on constants, merging of blocks) as often as one likes.  The program that is returned does not panic the optimizer, has no phis, and makes the same calls, reads and writes with the same values in the same order as the source: it ends when the source ends, in the same state of the outside world, and runs forever when the source does.", "quantifier": "all bodies built from the modelled statements and expressions; all interpretations of the operations under which the compile-time evaluator is right; any number of iterations; all runs, finite or not", "why_tests_cant": "programs, values, iterations and runs are unbounded", "anchors": ["optimize-js/src/lib.rs: build_program_function", "optimize-js/src/opt/optpass_dvn.rs", "optimize-js/src/opt/optpass_trivial_dce.rs", "optimize-js/src/opt/optpass_redundant_assigns.rs", "optimize-js/src/opt/optpass_impossible_branches.rs", "optimize-js/src/opt/optpass_cfg_prune.rs", "optimize-js/src/ssa/ssa_deconstruct.rs"]}
{"id": "C78", "title": "Statements do what ECMA-262 says", "statement": "Running a script or a function in the interpreter does what ECMA-262 says for every statement: blocks, declarations, `if`, all loops, labels, `break` and `continue`, `switch` with fall-through, `return`, `throw`, `try`/`catch`/`finally`, iterators that are closed when a loop is left.  The same expressions are evaluated in the same order and the same environments, the completion is the same, and the environment that was current before is current again.", "quantifier": "all statements of any size and nesting; all meanings of expressions, patterns, iterators and declarations; all environments and states; runs of any length", "why_tests_cant": "statements nest without bound and completions of each kind meet each construct; loops run any number of times", "anchors": ["vm-js/src/exec.rs: Completion, eval_stmt_list, eval_stmt_labelled, eval_block_stmt, eval_var_decl, eval_try, eval_catch, eval_while, eval_do_while, eval_for_triple, eval_for_in, eval_for_of, eval_label, eval_switch, run_ecma_function", "vm-js/src/iterator.rs: iterator_close"]}
{"id": "C79", "title": "Expressions do what ECMA-262 says", "statement": "Evaluating an expression in the interpreter gives the value, or throws the exception, that ECMA-262 says, and performs the same reads, writes, calls and conversions in the same order: literals, templates, array and object literals with spread, names, member access, optional chains, calls with the right `this`, `new`, `typeof`, `delete`, `++`/`--`, assignment, the logical, equality, relational and arithmetic operators with their conversions.  Constructs the interpreter does not implement end with an error no program can catch, not with a wrong value.", "quantifier": "all expressions of any size and nesting; all objects, functions, environments and states (any meaning of the operations on them); all values of all types; strict code and sloppy code", "why_tests_cant": "expressions nest without bound, each operand may be a value of any type, and conversions call user code that may change anything in between", "anchors": ["vm-js/src/exec.rs: eval_expr, eval_reference, get_value_from_reference, put_value_to_reference, eval_member, eval_computed_member, eval_unary, eval_update_expression, eval_call, eval_cond, eval_binary, instanceof_operator, ordinary_has_instance, eval_lit_template, eval_lit_arr, eval_lit_obj, loose_equality", "vm-js/src/ops.rs: to_number, to_boolean, to_primitive, to_numeric, to_string", "vm-js/src/property.rs: to_property_key"]}
{"id": "C80", "title": "Constant folding in the minifier keeps the meaning of expressions", "statement": "Replacing an expression by what the minifier's constant folder makes of it changes nothing a program can observe: the expression gives the same value or throws the same exception, its effects are the same and happen in the same order, and where only its truth matters (the condition of `?:`, `if` and loops) it is true in the same cases.  Names and properties that are assigned to, called with `this`, deleted or asked for their type stay what they are.  A number added to a string gets the text of Number::toString.", "quantifier": "all expressions of any size and nesting; all constants, including NaN, infinities, negative zero, strings of any code units and BigInts; all programs around the expression: any objects, functions, environments and states", "why_tests_cant": "expressions nest without bound, a folded operand appears in places that treat it as more than a value, and the doubles cannot be enumerated", "anchors": ["minify-js/src/opt/const_fold.rs: fold_expr, fold_binary_expr, fold_obj_member, const_val, const_truthiness, const_to_number, const_to_string, const_typeof, js_strict_eq, js_loose_eq, js_str_cmp, js_to_uint32, coerce_str_to_num, js_number_to_string, parse_ryu_to_decimal"]}
{"id": "C81", "title": "What the minifier drops as harmless has no side effects", "statement": "The minifier removes the initializer of an unused variable only if evaluating it can have no effect: it always gives a value, never throws, never runs code of the program, and changes nothing but by creating new objects.", "quantifier": "all expressions of any size and nesting the minifier classifies as free of side effects; all programs around them: any objects, functions, environments and states", "why_tests_cant": "expressions nest without bound, and whether an operator throws or calls a method depends on the types of its operands", "anchors": ["minify-js/src/opt/side_effects.rs: is_side_effect_free_expr, expr_bigint_kind, expr_bigint_sign, expr_definitely_string", "minify-js/src/opt/dce.rs: dce_stmt_in_list"]}
{"id": "C82", "title": "Assignability does not depend on what was asked before", "statement": "Whatever questions a relation context answered before, whatever its cache kept, is_assignable, is_comparable and is_strict_subtype answer yes exactly if the relation holds by the rules of assignability, recursive types being related unless unfolding the rules finds a conflict.", "quantifier": "all types, recursive ones included; all sequences of earlier questions and cache clearings; all cache evictions; all limits of depth, steps and pairs in progress", "why_tests_cant": "the answer to a question is stored and reused by every later one; a wrong entry shows only in particular sequences of questions, and recursive types make the questions depend on each other", "anchors": ["types-ts-interned/src/relate.rs: RelateCtx::relate_internal, assignable, is_assignable, is_comparable, is_strict_subtype", "types-ts-interned/src/cache.rs: ShardedCache"]}
{"id": "C83", "title": "Assignability follows the laws of sets", "statement": "Every type is assignable to itself, to unknown and any, and never to every type; simple types are assignable exactly if each value of the one is a value of the other; a type is assignable to every union it is a member of; a union is assignable exactly if each member is; a type is assignable to an intersection exactly if it is to each member; nothing that has values is assignable to never.", "quantifier": "all types, all stores, all sequences of earlier questions", "why_tests_cant": "the laws range over all types and over all orders of the special cases in the rules", "anchors": ["types-ts-interned/src/relate.rs: assignable, assignable_special, is_assignable"]}
{"id": "C84", "title": "Assignable types contain the values of their sources", "statement": "If is_assignable answers yes then every value of the source type is a value of the target type: an array or tuple has the length and the elements the target asks for, an object has the required properties of the target with values of their types, and what a string, number or literal is, it is for the target.", "quantifier": "all types without functions and type parameters, all values of them, all sequences of earlier questions", "why_tests_cant": "values and types are unbounded; an unsound rule shows only for the value that tells the two types apart, possibly deep inside another", "anchors": ["types-ts-interned/src/relate.rs: RelateCtx::is_assignable, assignable, assignable_special, relate_object, relate_tuple, relate_tuple_to_array, relate_array_to_tuple, merge_intersection"]}
{"id": "C85", "title": "The innermost span at an offset is found", "statement": "After any additions and finalizations, the *_at_offset queries of a finalized SpanMap return the innermost span at the offset (the shortest; of those the one that starts first; of those the one with the smallest id, for definitions the first kind), counting empty spans as being at their start; they return nothing exactly when no span is there. The *_span queries return the best span added for an id. The order of additions does not matter.", "quantifier": "all sequences of additions and finalizations, nested, overlapping, equal, empty or reversed ranges, and all offsets", "why_tests_cant": "sets of spans are unbounded and can overlap in any way; a wrong tie-break or merged segment shows only for a particular arrangement", "anchors": ["hir-js/src/span_map.rs: SpanMap, SpanIndex::add, finalize, build_segments, push_segment, query_span, span_of, DefSpanKey"]}
{"id": "C86", "title": "Narrowing keeps the values a variable can have", "statement": "Where a condition (truthiness, typeof, comparison with a literal, null or undefined, a discriminant property, `in`, a call of a type predicate, and !, &&, || and ?? of these) came out true or false, the narrowed types the checker gives the variables there still have the values the variables have; and narrowing never adds values.", "quantifier": "all conditions of any depth, all types, all values of the variables and both outcomes", "why_tests_cant": "conditions and types nest without bound, and a lost value shows only for a particular combination of test, type and operand", "anchors": ["typecheck-ts/src/check/flow_narrow.rs: and_facts, or_facts, nullish_coalesce_facts, narrow_by_nullish_equality, narrow_by_literal, truthy_falsy_types, narrow_non_nullish, narrow_by_typeof, narrow_by_discriminant_path, narrow_by_in_check, narrow_by_assignability", "typecheck-ts/src/check/hir_body.rs: eval_logical, eval_equality, apply_narrowing", "typecheck-ts/src/check/flow.rs: Env"]}
{"id": "C87", "title": "The minifier's passes over statements keep the program", "statement": "The statement rewriting, clean-up, declaration merging and control flow passes of the minifier give a body (of a script, module or function) that is set up from the same strictness, declarations, imports and exports, and then runs like the given one: the same effects in the same order, the same completion.", "quantifier": "all bodies of statements of any nesting, all behaviours of the expressions in them, any sequence of the passes, all answers of the binder about disabled scopes", "why_tests_cant": "statements nest without bound, and a lost hoisted variable, a changed scope or an effect out of order shows only for a particular nesting of jumps, declarations and branches", "anchors": ["minify-js/src/opt/stmt_rewrite.rs: rewrite_stmts, rewrite_stmt, stmt_to_expr, const_truthiness, has_use_strict_directive, contains_function_decl, collect_var_names", "minify-js/src/opt/cleanup.rs: clean_stmts, clean_stmt_in_list, clean_single_stmt", "minify-js/src/opt/decl_combine.rs: combine_stmts, merge_adjacent_var_decls", "minify-js/src/opt/cf_rewrite.rs: rewrite_stmts, drop_terminating_else, trim_unreachable_after_terminator, analyze_unreachable_stmt, is_unconditional_terminator"]}
{"id": "C88", "title": "Statements made from a control-flow graph run like the graph", "statement": "Turning an optimized control-flow graph back into statements (if, while(true), break, continue, or a loop over a state variable) always gives a result, and the statements end exactly when the graph does, in the same state or with the same exception.", "quantifier": "all control-flow graphs of any size, reducible or not, with any nesting of loops and conditionals; all meanings of operations and conditions; all start states", "why_tests_cant": "graphs and runs are unbounded, and a wrong branch, break or continue shows only for a particular nesting of loops and a particular outcome of the conditions", "anchors": ["optimize-js/src/decompile/structurer.rs: structure_cfg, LoopForest, StructCtx, structure_seq, structure_block, resolve_single_successor, structure_if, structure_loop, loop_guard, build_state_machine, build_terminator", "optimize-js/src/decompile/mod.rs: program_to_ast, lower_tree_with_stack, collect_labeled_loops, lower_state_machine", "optimize-js/src/analysis/find_conds.rs: find_conds, nearest_common_postdom", "optimize-js/src/dom/mod.rs: augment_cfg_for_postdom, PostDom::calculate"]}
{"id": "C89", "title": "Numeric literals are read as ECMA-262 says", "statement": "Reading a source text that starts with a number gives the longest numeric literal there: a Number with the literal's mathematical value (then rounded), or a BigInt with its exact digits in decimal. Texts that are no literal (misplaced separators, digits outside the base, missing exponent digits, leading zeros in BigInts) and, in strict mode code, literals with a leading zero are rejected, and so are literals with an identifier directly after them.", "quantifier": "all source texts, of any length, in strict and in other code; all literals with any number of digits, separators, fractions and exponents", "why_tests_cant": "literals are unbounded, and bases, separators, legacy octal forms, fractions, exponents and suffixes combine in more ways than tests list", "anchors": ["parse-js/src/lex/mod.rs: consume_digits_with_separators, lex_bigint_or_number, lex_binary_bigint_or_number, lex_hex_bigint_or_number, lex_oct_bigint_or_number", "parse-js/src/num.rs: JsNumber::from_literal, parse_number_literal, parse_decimal_literal, parse_integer_literal, is_legacy_octal_literal, is_leading_zero_decimal_literal", "parse-js/src/parse/expr/lit.rs: lit_num, lit_bigint_val, normalise_literal_number, normalise_literal_bigint"]}
{"id": "C90", "title": "Every identifier is bound where ECMA-262 binds it", "statement": "After binding a program, every use of an identifier carries the symbol of the innermost enclosing scope that ECMA-262 says binds that name, counting hoisted var declarations, function declarations (with Annex B hoisting of block functions in sloppy code), class, function-expression, catch, loop, parameter and import bindings, and the names of parameters that bodies shadow; a use of a name nothing binds carries no symbol.", "quantifier": "all programs of any size and nesting, as scripts, modules and global code, strict and sloppy", "why_tests_cant": "scopes nest without bound, and hoisting depends on every declaration between a declaration and its function; one wrong scope makes an optimiser or minifier change what a program does", "anchors": ["semantic-js/src/js/declare.rs: DeclareVisitor", "semantic-js/src/js/resolve.rs: ResolveVisitor", "semantic-js/src/js/mod.rs: JsSemantics, bind_js"]}
{"id": "C91", "title": "Values cross the Web IDL boundary as Web IDL says", "statement": "Converting a JavaScript value to a Web IDL type performs exactly the engine operations that Web IDL prescribes, in its order, and returns a value of that type or the exception of the first operation that fails; no sequence exceeds the configured limit; converting back succeeds for every value of the type; overload resolution picks the overload that Web IDL picks, converts each argument once to that overload's type, and never panics; array indices become their decimal keys.", "quantifier": "all engines (states, scripts run by conversions, exceptions), all IDL types of any nesting, all values, all overload sets and argument lists", "why_tests_cant": "every operation of the engine may run a script that changes the state or throws, types nest without bound, and the choice of an overload depends on all overloads and on methods read from the value", "anchors": ["webidl/src/convert.rs: convert_js_to_idl, convert_js_to_union, convert_idl_to_js, create_sequence_from_iterable, create_frozen_array", "webidl/src/overload.rs: resolve_overload, distinguishing_argument_index", "webidl/src/types.rs: IdlType", "webidl/src/to_js.rs: index_to_property_key"]}
{"id": "C92", "title": "Rewritten property keys denote the same properties", "statement": "When the minifier rewrites a computed member access to a dotted one or to a numeric index, an object key to an identifier, number or string key, or a property to a shorthand, the program accesses the same property as before, what follows a dot is an identifier name, and an object literal sets the prototype exactly if it did before.", "quantifier": "all key expressions: strings of any characters and length, numbers, BigInts, templates, booleans, null; all keys of object literals and patterns; all identifiers", "why_tests_cant": "the keys are arbitrary strings, and the conversion of indices depends on how doubles round and print, which differs from the digits of the source only for some large numbers", "anchors": ["minify-js/src/opt/prop_rewrite.rs: simplify_computed_member, simplify_object_key, parse_canonical_u64_index, try_shorthand_prop, try_shorthand_pat_prop", "parse-js/src/lex/mod.rs: consume_identifier, lex_unicode_escape"]}
{"id": "C93", "title": "Paths are normalized", "statement": "The virtual path of a file is its drive in lower case, if it has one, and the directories that the given path leads to from the root: both slashes separate, extended prefixes and empty and `.` parts do not count, `..` goes to the parent and never above the root. It begins with a root, contains only names, and normalizing it again does not change it.", "quantifier": "all strings, of any length, with any mixture of slashes, drives, prefixes and dots", "why_tests_cant": "the buffer of the result doubles as the stack of directories, so every sequence of names and `..` has to leave the right one; there are infinitely many", "anchors": ["diagnostics/src/paths.rs: normalize_ts_path, normalize_ts_path_into"]}
{"id": "C94", "title": "Numbers used as keys", "statement": "Two numbers of the parser or constants of the optimizer are equal exactly if they are the same JavaScript value, equal ones have equal hashes, their order is the numeric order and agrees with equality, and a value that the optimizer looks up among those it computed before is found exactly if the same operation on the same values was entered.", "quantifier": "all pairs and triples of doubles (all bit patterns, with NaNs, infinities, subnormals and zeros), all operations on constants, and all hash tables, whatever their hash function and probing", "why_tests_cant": "there are 2^128 pairs of doubles, and a lookup with equal keys of different hashes succeeds or fails with the random seed of the table", "anchors": ["parse-js/src/num.rs: PartialEq, Ord and Hash for JsNumber", "optimize-js/src/il/inst.rs: Const, Arg", "optimize-js/src/opt/optpass_dvn.rs: Val, State::upsert_val"]}
{"id": "C95", "title": "Loops of a control-flow graph are described as they nest", "statement": "The description of the loops lists one loop per target of back edges, in order, with its natural loop as nodes, the sources of its back edges as latches and the edges that leave it as exits; two loops are nested or disjoint, so no overlap is ever reported and the decompiler never gives up for that reason; the parent of a loop is the innermost other loop that contains it, and the children are the loops that have it as parent.", "quantifier": "all control-flow graphs built with the API, reducible or not, of any size, and all entries", "why_tests_cant": "that natural loops nest is a fact about all walks through all graphs; the parent is chosen by comparing sizes, which is right only because of it", "anchors": ["optimize-js/src/analysis/loop_info.rs: LoopInfo::compute, LoopInfo::from_loops_map", "optimize-js/src/analysis/find_loops.rs: find_loops", "optimize-js/src/decompile/structurer.rs: LoopForest::new"]}
{"id": "C96", "title": "Widening a type replaces its literal types by their primitive types", "statement": "The values of the type that widening returns are exactly those the given type has when every literal type below its unions, intersections and arrays is read as the primitive type it belongs to; so no value is lost. No such literal is left, a type without one is returned as it is, and widening again, at once or later, changes nothing. Widening the elements of an array type is widening the array type. The store only grows.", "quantifier": "all stores that operations can build, with arbitrary fingerprint functions (colliding ones included), all types in them and all readings of the kinds left open", "why_tests_cant": "the result is built by union and intersection, which flatten, drop, merge and sort; that the values come out right and that nothing is left to widen must hold for every nesting", "anchors": ["typecheck-ts/src/check/widen.rs: widen_literal, widen_union_literals, widen_array_elements", "types-ts-interned/src/store.rs: union, intersection, intern_type"]}
{"id": "C97", "title": "Widening an object literal widens its mutable members and nothing else", "statement": "Widening the properties of an object type gives an object type with the same properties and index signatures, one for one: read-only members keep their type, the types of mutable members become their widened types, and keys, flags, origins and overloads stay. An object type whose mutable members show no literal types, and any type that is not an object type, is returned as it is without anything being interned; doing it again, at once or later, changes nothing. Every shape in a store lists each property key and each index key type once.", "quantifier": "all stores that operations can build, with arbitrary fingerprint functions, and all types in them", "why_tests_cant": "the changed shape goes through interning, which sorts and merges members; that no two members are merged depends on an invariant of every stored shape, and the store changes while the members are widened", "anchors": ["typecheck-ts/src/check/widen.rs: widen_object_literal_props", "types-ts-interned/src/store.rs: intern_shape, intern_object, intern_type"]}
{"id": "C98", "title": "A substituted type parameter is gone", "statement": "When a type or signature is instantiated, a type parameter that the mapping replaces, and that the types put in its place do not use, is used nowhere in the result: not in parts, members, index signatures, signatures, constraints of the type parameters that remain, or arguments, at any depth. (The code leaves type predicates `x is T` and the constraints of `infer` as they are.)", "quantifier": "all stores that operations can build, with arbitrary fingerprint functions, all types and signatures in them and all mappings", "why_tests_cant": "types are graphs of arbitrary depth over several tables; results pass through memo tables and through unions, intersections and shapes that flatten, drop and merge their parts", "anchors": ["typecheck-ts/src/check/instantiate.rs: Substituter", "types-ts-interned/src/store.rs: intern_type, intern_signature, intern_shape, union, intersection"]}
{"id": "C99", "title": "Instantiation replaces type parameters part by part, whatever was instantiated before", "statement": "What a substituter returns for a type or signature is an instance of it under its mapping: a mapped type parameter becomes the type it is mapped to, an unmapped one stays, and every other type, shape and signature is built again by the store from instances of its parts, one for one, with all flags, keys, modifiers and the order of branches kept and the mapped type parameters of signatures removed. This does not depend on what the substituter was used for before: its memo tables never return anything else.", "quantifier": "all stores that operations can build, with arbitrary fingerprint functions, all mappings, all histories of calls of a substituter and all types and signatures", "why_tests_cant": "types are graphs of arbitrary depth over several tables, the store grows during the recursion, and the memo tables depend on the history of calls", "anchors": ["typecheck-ts/src/check/instantiate.rs: Substituter", "types-ts-interned/src/store.rs: intern_type, intern_signature, intern_shape, intern_object"]}
{"id": "C100", "title": "The type store gives the same answer to the same question, for ever", "statement": "Interning a name, type, signature, shape or object, forming a union or an intersection, or asking for a canonical type a second time with the same arguments returns the identifier it returned the first time and leaves the store unchanged, whatever operations happened in between. Sorting, merging of members and the handling of colliding fingerprints are included.", "quantifier": "all stores that operations can build, with arbitrary fingerprint functions, all operations, all arguments and all sequences of operations in between", "why_tests_cant": "operations sort by an order that reads the store, merge members by building intersections, and probe tables that grow; the claim is about every history", "anchors": ["types-ts-interned/src/store.rs: intern_name, intern_type, intern_signature, intern_shape, intern_object, union, intersection, canon"]}
{"id": "C101", "title": "Instantiating a type does not depend on what was done before", "statement": "Two substituters for the same mapping, whatever each was used for before and whatever happened to the store between their uses, return the same type for a type and the same signature for a signature.", "quantifier": "all stores that operations can build, with arbitrary fingerprint functions, all mappings, all pairs of histories of calls and all types and signatures", "why_tests_cant": "the claim compares arbitrary histories of memo tables and of a growing store", "anchors": ["typecheck-ts/src/check/instantiate.rs: Substituter", "types-ts-interned/src/store.rs: intern_type, intern_signature, intern_shape, intern_object"]}
{"id": "C102", "title": "Instantiation always ends", "statement": "Substituting in a type or signature never recurses deeper than the number of types in the store at the time of the call, for every mapping, including mappings of a type parameter to types that mention it: what would happen at that depth makes no difference to the result.", "quantifier": "all stores that operations can build, with arbitrary fingerprint functions, all mappings, all histories of calls and all types and signatures", "why_tests_cant": "the depth depends on graphs of arbitrary depth over several tables, and the store and the memo tables grow during the recursion", "anchors": ["typecheck-ts/src/check/instantiate.rs: Substituter"]}
{"id": "C103", "title": "The cache of instantiated signatures makes no difference", "statement": "Instantiating a generic signature through the cache returns the instance of the signature under the mapping that was passed, the same that a new substituter would return, whatever calls filled the cache before, whatever was evicted from it and whatever happened to the store in between. (Fails for mappings that leave out a type parameter: they share a cache entry with mappings to unknown.)", "quantifier": "all stores that operations can build, with arbitrary fingerprint functions, all histories of calls, evictions and store operations, all signatures and mappings", "why_tests_cant": "whether two calls share an entry and what the entry holds depends on the whole history", "anchors": ["typecheck-ts/src/check/instantiate.rs: InstantiationCache, instantiate_signature", "types-ts-interned/src/cache.rs: ShardedCache"]}
{"id": "C104", "title": "Interning what an identifier stands for gives that identifier", "statement": "Looking up the kind of a type, the contents of a shape, a signature, an object or a name and interning what was found returns the identifier that was looked up and adds nothing to the store: stored forms are fixed points of normalization.", "quantifier": "all stores that operations can build, with arbitrary fingerprint functions and collisions, all identifiers in them", "why_tests_cant": "a stored form is the result of sorting, merging and deduplicating with respect to the store as it was when the form was interned, and must be a fixed point with respect to every later store", "anchors": ["types-ts-interned/src/store.rs: TypeStore::intern_type, intern_shape, intern_signature, intern_object, intern_name, type_kind, shape, signature, object"]}
{"id": "C105", "title": "Instantiation leaves alone what the mapping does not concern", "statement": "Instantiating a type or a signature under a mapping that gives a type to no type parameter declared in it, and no type or the type parameter itself to those used in it, returns the very same identifier and adds nothing to the store.", "quantifier": "all stores that operations can build, with arbitrary fingerprint functions, all types and signatures in them, all mappings that change none of their type parameters", "why_tests_cant": "the type is taken apart and interned again at every level, and each level must come back as the identifier it had in every store", "anchors": ["typecheck-ts/src/check/instantiate.rs: Substituter::substitute_type, substitute_signature_id, substitute_shape, substitute_object"]}
