# Formal model of ecma-rs in Lean 4: design

## Trusted base
* Lean 4.33.0's kernel. Theorems depend on at most `propext`, `Classical.choice`, `Quot.sound`
  (checked with `#print axioms`).
* No axioms of our own, no `sorry`/`admit`, no `native_decide`/`bv_decide`, no `implemented_by`, no `unsafe`.
* The faithfulness of the model to the Rust text in /repo: each definition cites the file and
  lines it models and says where it simplifies.

## Layout
`lean/Verif/<Area>/` holds one family of files per area:
* `Model.lean`     definitions following the Rust code function by function, with citations
* `Spec.lean`      small, independent specification (paths, relations, maps, ECMAScript algorithms)
* `Lemmas.lean`    helper lemmas
* `Theorems.lean`  the property theorems (names listed in MANIFEST.json) with non-vacuity examples

## Modelling conventions
* Rust `u32`/`usize`/`u128` become `Nat` with explicit bounds or explicit wrap-around where the code wraps
  or the property depends on it. `Vec` becomes `List`, `HashMap`/`HashSet` becomes an association list or a
  function, panics and `Err` become explicit error values (`Except`/`Option`).
* Strings are lists of code points (`List Nat`/`List Char`) or UTF-16 units.
* Loops become structural or well-founded recursion; termination proofs are part of the model.
* A property the code violates is refuted with a concrete witness (`..._violated`) and the true part is
  proved with suffix `_partial`.

## Per property plan
| id | what is modelled | how it is proved |
|----|------------------|------------------|
| C01, C02 | `Heap::collect_garbage_with_extra_roots`: slots, mark bits, worklist, sweep over cells with an arbitrary reference function | marking = reachability (worklist invariant, well-founded on unmarked slots); sweep keeps marked slots verbatim |
| C03 | allocate / free / collect as a transition system with wrap-around generations | invariant over histories: handle generation <= slot generation; explicit 2^32 witness for aliasing |
| C04 | allocation with threshold GC, limit check, slot resize | invariant used = sum of sizes; case analysis of the allocation path |
| C05, C06 | persistent root table with free list; root stack and scopes | refinement to a finite map; induction over well-nested programs |
| C07 | registry as sorted vector with binary search | invariant sortedness + refinement to a map; registry cells are GC roots |
| C08 | prototype pointers and the walk in `object_set_prototype` | acyclicity invariant, induction on chain length |
| C09, C10 | descriptor validation on one property, ordinary objects as ordered property lists | case analysis against an independently written ECMAScript algorithm; induction over operation sequences |
| C11 | array exotic define-own-property and set-length | invariant by induction over operations, deletion loop by induction on length |
| C50 | non-extensible objects, same model as C10 | induction over operation sequences |
| C12, C13 | key listing and array-index parsing | sorting/permutation lemmas, numeral round trip |
| C14 | environment record bindings | refinement to a state machine per name, induction over histories |
| C15 | microtask queue and checkpoint loop with re-entrant jobs | queue program semantics as a transition system, FIFO invariant |
| C51, C52 | the VM's queue as moved in and out by `call`, `call_without_host` and script execution | same programs with an extra call node; witnesses where a job is lost or reordered |
| C16, C17 | promise slot + reactions, rejection tracker | invariants over histories |
| C18 | sign-magnitude arithmetic with 128-bit checks, decimal printing | refinement to `Int` |
| C19, C20 | unit-wise comparison, hash; line table and binary search | order theory on lists; counting specification |
| C21 | request equality and canonicalisation | set reasoning; witness for duplicates |
| C22, C23 | module graph, ResolveExport, GetExportedNames | well-founded recursion on unvisited pairs; refinement to inductive relations |
| C53, C54, C55 | namespace export list, linking by specifier, ParseModule entries | same relations; sortedness; comparison with a separate reading of ECMA-262 ParseModule, witness for re-exported imports |
| C56, C57, C58 | module graph loading as a machine with an explicit call stack and an arbitrary host | one invariant over all steps (pending count = unanswered calls + work on the stack); lexicographic measure for termination |
| C24, C25 | tick, budgets and guards, frame stack | induction over traces |
| C26, C27 | graph as pair of relations with the code's updates, BFS | invariants, path induction |
| C59 | depth-first postorder with explicit visited set | induction on the recursion: closed, tree-parent-later and topological parts |
| C28 | postorder, iterative idom computation with `intersect` | tree invariant (numbers increase upwards, all dominators stay on the chain); after pass k all walks of length k are respected; simple walks bound the passes |
| C60, C61, C62 | chains of immediate dominators, `runner` walk, backwards search from back edges | reduction to the tree specification; closure invariant of the search; witnesses for an entry with predecessors and for unreachable predecessors |
| C29 | the worklist solver over an abstract lattice and any flow graph with virtual exit; liveness with bit sets and inlining | invariant of the worklist (a block is settled or waiting), room left in the lattice for termination, comparison with any post-solution for leastness; exact description of the blocks that are never evaluated, with witnesses; the live sets characterised exactly |
| C30 | interference pairs, elimination by degree, greedy colouring, renumbering, single-use inlining and the whole of `compute_regalloc` | induction over the elimination order and the colouring; equal results for equal graphs; witnesses for variables live across blocks and for targets that are never read |
| C31 | `deconstruct_ssa` on whole control-flow graphs: collecting the copies, splitting the edges, retargeting branches | operational semantics of the intermediate language over an arbitrary interpretation of the opcodes, phis in parallel; simulation with at most one additional block per edge; witness for the swap problem |
| C32 | `optpass_trivial_dce`, `optpass_redundant_assigns` on whole control-flow graphs | simulation; for copies the equations that hold at every point of a strict SSA program, by induction over walks; witnesses for getters and for chains of copies |
| C33 | `optpass_dvn` along the computed dominator tree, with canonical arguments, folding (the evaluator is a parameter) and phi canonicalisation | every entry of the state is an equation that holds wherever its definition has been passed; simulation with equal states; witness for property reads |
| C34 | the whole of `consteval.rs`: string-to-number and string-to-BigInt conversion, ToBoolean, ToInt32/ToUint32, all unary and binary operators, `Math.abs/ceil/floor/round/trunc`; doubles as exact multiples of 2^-1074 with rounding to nearest even; the shortest digits (`ryu`), `powf` and the other functions of `Math` are parameters | agreement in both directions with relations written from ECMA-262 (the literal grammar with its values, integer congruences, bits, UTF-16 order); rounding shown to be to nearest; witnesses for BigInt truthiness, BigInt equality and order, blank and signed strings, `1 ** NaN`, the text of infinity, minus zero and large numbers, `Math.round` of negative halves |
| C35, C36 | escape functions and template emitters over code points | the grammar of literals with their values as relations; emitted text shown to be in the grammar by induction, and the reader of C63/C64 to accept it |
| C63, C64 | `lex_string`, `lex_template_string_continue`, escape decoders, legacy search, `template_content` | agreement with the grammar in both directions; the lexer as a state machine that stays in step with the decoder; witnesses for octal escapes above 377, a lone quote at the end of input and CR in templates |
| C37 | precedence and operator tables, the expression parser of parse-js (operands, `new` chains, arguments, arrays, arrow bodies, the precedence loop) and the three expression printers of emit-js, on tokens; primaries opaque | an inductive relation of renderings with their *edge* (how loosely the parser still reads on at the end); the parser reads every rendering back; the printers write renderings of the expressions of `okA`/`okH`/`okJ`; a witness for each excluded shape |
| C38 | the statement parser of parse-js and the printer of `js_stmt.rs` with the separator decision of `asi.rs`, on tokens with line terminators; destructuring, `for … in/of`, `with`, modules and TypeScript left out | the parser lemmas of C37 with what may follow a statement (`After`: end, `;`, `}` or a line terminator in front of a token that does not go on with an expression); mutual induction over statements and lists; a witness for each excluded shape |
| C39, C65 | `record_symbol_usage`, `record_unknown`, `collect_usages`, `assign_names` with dynamic scopes, pinned symbols and Annex B links, on arbitrary scope tables | lexical scoping as an inductive relation; one invariant over the scopes that have had their turn (a set closed under parents), with the effect of one turn as a separate lemma; witnesses for Annex B functions and for variables pinned by `with` |
| C40, C41 | name generator, splice | injectivity of the encoding; pigeonhole for termination |
| C42 | NameMangler state machine | invariant over histories |
| C43 | comparison chain and stable sort | total-preorder proof; uniqueness of sorted permutations |
| C44, C45 | sharding, manifest lookup | arithmetic; list search lemmas |
| C46 | `Loc`, `TextRange` | lattice laws by arithmetic |
| C47 | `insert_with_collision` (both variants) and `NameInterner::intern` over arbitrary fingerprint functions; threads as calls whose passes through the loop interleave | an invariant saying where on its collision chain each value lies, kept by every event of every schedule |
| C48 | the whole interning interface of `TypeStore`: kinds, signatures, shapes, objects, `type_cmp`, `canon`, `union`, `intersection`; other operations than the insertion loop are atomic, `OrderedFloat` is its rank | store invariant over all operation histories (everything mentioned is present, types have lower rank than those that mention them, stored unions are canonical); `type_cmp` is a total order that later operations do not change; closed forms without `canon`; witnesses for nested unions and `any` |
| C66 | types as sets of values, with an arbitrary set for each kind the simplifications do not look into | induction over the closed forms |
| C67 | `snapshot`, `from_snapshot` on all tables | stores with equal lookups agree on every operation |
| C68 | `intern_shape` with merging of properties and index signatures | uniqueness of sorted permutations when equal keys are equal; witness for merging of origins |
| C69 | the emitter's boundary tracking (`needs_space`, `html_start`, every `write_*` method except the raw ones) and `lex_next` with comments, identifiers, numbers, strings, regular expressions and operators, over arbitrary Unicode tables; not templates, private names, decorators, JSX, identifier escapes | what the lexer's functions do on a token followed by a text whose first characters do not continue it; induction over the items with the emitter's state; a witness for each excluded neighbourhood |
| C70 | the statement printer of `stmt.rs` over the statement parser of C38 | as C38, with what the parser leaves of a written semicolon; a witness for each excluded shape |
| C71 | `calculate_defs`, `insert_phis_for_ssa_construction`, `rename_targets_for_ssa_construction` with pruning of phis and `simplify_phis` | a certificate that describes the result block by block (names as intervals of the counter, in the order of the dominator tree); names do not change along an edge into a block without a phi, by walking up the dominators to the frontier; simulation; strict SSA by induction over walks; witness for an entry with predecessors |
| C72 | `simplify_phis` on programs in SSA form | the result described instruction by instruction; a copy that replaces a phi reads a name no other copy of the block writes, since its definition dominates the predecessor; witness for phis in the entry |
| C73 | `optpass_impossible_branches` with `coerce_to_bool`, removal of unreachable blocks and `simplify_phis`, iterated until nothing changes | blocks and edges only disappear, and only those no run takes; strict SSA survives because there are fewer walks; edges and phi entries as measure for termination; witness for BigInt constants |
| C74 | `convert_insts_to_bblocks`, `Cfg::from_bblocks`, removal of unreachable blocks | the code cut into segments, each with its label, its start and what ends it; the blocks are the segments; simulation of blocks by instructions, both ways at the end; composed with C71 |
| C75 | `translate_body`, `compile_stmt`, `compile_expr_with_chain` (untyped build): all operators, assignments to names and properties, calls, `new`, optional chains, literals of all kinds as calls of internal functions, all statements except `for`-`in`/`of`, destructuring and function declarations | a big-step semantics of the source over any interpretation of the operations; simulation by instructions, by mutual induction on the syntax and on the iterations of each loop; composed with C74 and C71. Proved for programs in which evaluation order does not expose that local operands are read late, and compound assignments to shared places have a quiet right side; seven witnesses for the other cases (late operand reads, `++` on globals, shared variables and properties not stored, `++` on a string, order of `+=`). Exceptions and the value returned do not exist in the instructions: `throw` is treated as the end of the body in the source semantics too, and parameters are variables like others |
| C76 | `optpass_cfg_prune` whole: a new entry, removal of blocks with its changes to graph, branches and phis, joining of empty exits, the loop with `simplify_phis` | an invariant (SSA form, complete phis with two or more entries, forking branches, and conditions on the phis behind blocks that may vanish: `NoRace`, `EntryApart`) kept by five kinds of step, each with a simulation that may skip blocks (`Skips`); termination by the number of blocks and whether phis are simple; three witnesses: an empty block beside a direct edge loses a phi entry, a new entry loses the first value of a loop, empty exits panic |
| C77 | the main loop of `build_program_function`: dominators, value numbering, dead code, copies, constant branches, pruning, iterated; with translation, graph, SSA and back | each pass keeps SSA form, complete phis, forking branches, labels below the counter and operations that depend on their operands only; sequences of times compose; the whole is composed with C75, C74, C71 and C31. `CleanRounds` says that no iteration meets a known fault of a pass; three bodies that do are shown to be miscompiled or to panic |
| C78 | the statement interpreter of `vm-js/src/exec.rs`: statement lists, blocks, declarations, `if`, the five loops, labels, `switch`, `try`, with its mutable current environment, its `Result`s and its completions; expressions, patterns, declarations and iterators are a parameter (`Host`) | ECMA-262 chapter 14 is an inductive relation with the environment as a parameter (`Ecma`). What the interpreter returns the relation allows, by recursion on syntax and induction on the fuel of each loop; what the relation allows the interpreter returns, by induction on derivations. `Plain` excludes what the interpreter does differently; each exclusion has a program that shows it |
| C79 | the expression evaluator of `vm-js/src/exec.rs` (`eval_expr` and what it calls), with the conversions of `ops.rs`; environments, objects, functions and iterators are a parameter (`Host`). Direct `eval`, tagged templates and what the evaluator rejects count as errors that cannot be caught, about which nothing is claimed | ECMA-262 chapters 7 and 13 are an evaluator with Reference Records and optional chains that end (`Ecma.eval`). `Good` relates the six ways in which the VM looks at a node to the one of ECMA-262; it holds for all expressions by mutual induction. The cases the VM gets wrong are marked in the specification (`within`); with the flag `full` the marks do nothing, and each mark has an expression that shows it |
| C80 | `minify-js/src/opt/const_fold.rs`: the whole folder on expressions, with its conversions and its text of numbers (`ryu`'s digits and `powf` are parameters, `Lib`). Parentheses are nodes of the model and a mark in the code; templates, `x++` and what the folder passes over are kept as they are. Statements, JSX and TypeScript nodes are left out | the meaning is ECMA-262 as in C79 (`Ecma.eval`, `full = true`) over doubles (`F64`), with the arithmetic of ECMA-262 (`Standard`). `Keeps` (same value, same truth, same reference) holds for all expressions that are `Safe`, by mutual induction; `Clear` is a condition on the text alone that implies `Safe`. Each place `Safe` leaves out has an expression whose meaning changes (`_violated`) |
| C81 | `minify-js/src/opt/side_effects.rs`: `is_side_effect_free_expr` with its kinds of BigInts, signs and strings, on the expressions of C79. Classes, regular expressions and TypeScript nodes are left out | the meaning is ECMA-262 as in C79. `Allocates` says what it means for a host to create objects without other effects; under it every accepted expression gives a value and only creates objects, by mutual induction with what the analysis says about the value (`Fits`). `Primitives` leaves out operators that convert an object: two `_violated` theorems show that the function accepts such expressions and that they run code or throw. BigInts are taken to be unbounded (`Unbounded`) |
| C82 | `types-ts-interned/src/relate.rs`: all of `relate_internal` and `assignable` (variance, normalization, special cases, references, conditional types, unions, intersections, literals, arrays, tuples, callables, objects, index signatures), without reasons and the intrinsic string types. One pair's rules are a formula over further questions, read from left to right; the engine answers questions from the cache, by assumption or by the rules. The evaluator, expansion of references, spreads, unions with undefined, shape interning and template matching are arbitrary functions of the store; evictions are arbitrary | the largest relation that agrees with the rules (`Related`) knows no cache, history or limit. Invariant: no cache entry says no wrongly, so what holds is never denied (`C82_partial`, first part). For types whose unfolding ends within the depth limit every entry is exact (second part) and answers do not depend on history. Otherwise false: entries found under assumptions stay (`C82_history_violated`, `C82_depth_violated`, `C82_first_violated`) |
| C83 | the rules of C82 | from C82 and the rules: `C83_extremes`, `C83_simple` (against a small set of values), `C83_member_partial`, `C83_union_partial`, `C83_intersection_partial`; the laws fail for type parameters, unresolved conditional types and `{}` in unions, for unions with null against `{}`, and for any against never (`_violated`) |
| C84 | the rules of C82; values as a small inductive predicate `Mem` (`ValueSpec.lean`), functions and type parameters left out | one unfolding of the rules preserves inclusion of values (`rules_sound`), induction over the unfolding with C82: `C84_partial`; false for tuples longer than the target, index signatures in place of required properties, arrays against object types with properties, unions with null against `{}` (`_violated`) |
| C85 | `hir-js/src/span_map.rs`: `SpanIndex` (add, finalize, the sweep over start and end events, segments, the search, empty spans, `by_id`) and the definitions part of `SpanMap`; offsets are natural numbers, binary search is a scan for the first segment that fits, hash maps are functions | invariant of the sweep: the active set is the set of spans over the current stretch, so each segment names the least of them (`sweep_right`); the answer is compared with `Innermost`, which knows no segments (`C85`, `C85_order`, `C85_defs`) |
| C86 | `typecheck-ts/src/check/flow_narrow.rs` (all narrowing functions but `instanceof`), the combination of facts in it, and how `hir_body.rs` evaluates conditions; without expansion of references, facts about property paths, assertion functions and optional chains; the store's union (C66) and assignability (C84) enter as assumptions about the values of their results | types are sets of values (`Mem`), conditions have outcomes (`Runs`); for the types and conditions that are `Fair` the values are kept (`C86_partial`, induction over the run), for truthiness for all types (`C86_truthy`); nothing is added, for all (`C86_within`); the rest is unsound in the code: witnesses `C86_*_violated` |
| C87 | `minify-js/src/opt/{stmt_rewrite,cleanup,decl_combine,cf_rewrite}.rs` function by function, on one body at a time; expressions are opaque but for literals, `&&` and `?:`; nested functions are opaque (each has a body of its own); what the binder says about a list of statements is an argument (`Site`), what it says about declared symbols is read off the statement; not the other passes of the pipeline (`const_fold` is C80, `dce`, `prop_rewrite` and `sem_rewrite` are not modelled), nor completion values of scripts | a big-step meaning of statements over an arbitrary machine (`Spec.lean`: `Run`, `Header`); for bodies that are `Fair` any sequence of passes keeps header and runs (`C87_partial`, induction over statements, runs and passes); `C87_flow_whole`: the fuel of the model cuts nothing off; five witnesses `C87_*_violated` of programs the passes change |
| C88 | `optimize-js/src/decompile/structurer.rs` and the lowering of its result in `decompile/mod.rs` function by function, `analysis/find_conds.rs`, and post-dominators (`dom/mod.rs`; strongly connected components are found by reachability instead of Tarjan's algorithm); an instruction is a conditional jump or an opaque operation that becomes one statement; not how operands and operations are spelled, nor the declarations of variables | runs of the graph and of the statements over an arbitrary machine that may throw (`Spec.lean`: `CfgEnds`, `JsEnds`); the walk of the structurer as a relation (`Walked`), then one induction over it: a tree that runs out of fuel `n` has done at least `n` blocks, any other end of the tree is the same end of the graph (`walked_meets`); joins from post-dominance over all paths (`join_on_path`); `C88_same_ends_partial`, `C88_state_machine` in full, `C88_total` (a result is found, with a bound on the depth); three witnesses `C88_*_violated` |
| C89 | the four lexing functions for numbers in `parse-js/src/lex/mod.rs`, all of `parse-js/src/num.rs` up to the literal's value, `lit_num` and `normalise_literal_bigint` in `parse/expr/lit.rs`; a number is the exact rational given to `fast_float`, whose grammar is modelled and whose rounding is not (it is a dependency) | the grammar and the mathematical values of ECMA-262 12.9.3 as relations (`Numeric/Spec.lean`: `NumLit`, `BigLit`); soundness from the shape of accepted tokens, completeness by running the lexer on each production with a longest-match hypothesis; a witness for `3in x`, which is accepted |
| C90 | the declaring walk of `semantic-js/src/js/declare.rs` (scopes, declaration contexts, hoisting, Annex B candidates and their suppression) and the resolving walk of `resolve.rs`; scope and symbol numbers are the hashed data, so hash collisions are outside the model, and so are symbol flags, dead-zone marks, diagnostics, `with` and direct `eval` | names and scope chains by ECMA-262's declaration instantiation, as functions of the tree alone (`Bind/Spec.lean`: `meaning`); the table of each scope is characterised from the declarations under it, then the resolving walk agrees with the chain by induction on the tree; witnesses for the seven kinds of program the binder gets wrong |
| C91 | `webidl/src/convert.rs` (conversions both ways, unions, iterables, frozen arrays), `overload.rs` and `index_to_property_key`, as functions of an arbitrary engine `Rt` whose operations change its state and may throw; object handles are values, tests for the kind of a value do not depend on the state, messages are left out | the equations of Web IDL as a structure that the converter satisfies (`WebIdl/Spec.lean`: `Follows`, `unionSpec`, `chooseSpec`), equality of computations, so effects and their order are included; typing and absence of panics by induction on the size of the type; a small engine shows that the hypotheses are met and witnesses nine departures from Web IDL |
| C92 | `minify-js/src/opt/prop_rewrite.rs` on one key at a time, with the identifier lexer of `parse-js/src/lex/mod.rs`; the Unicode tables and the arithmetic of doubles are parameters, the latter with the laws of IEEE 754 and Number::toString (`PropKey/Spec.lean`: `Lawful`); the walk over the tree and the printing are not modelled | the key denoted before and after is equal, case by case; integers below 2^53 print as their digits because no other number rounds to them; witnesses for large indices, and for strings that look like identifiers with escapes |
| C93 | `diagnostics/src/paths.rs`: `normalize_ts_path_into` with its buffer, on characters instead of bytes; `to_string_lossy` is not modelled | the buffer is always the rendering of the list of directories reached so far; the specification determines the result, which gives idempotence; witness for a directory that has the name of a drive |
| C94 | `Eq`, `Ord` and `Hash` of `JsNumber` on the bits of doubles, with what is derived for `Const`, `Arg` and `Val`; a hash table is any order of visits that includes the entries with the same hash | sizes in units of 2^-1074 grow strictly with the bits, so sign and size determine the bits; SameValueZero for equality; witnesses for the two zeros and for NaN. The models of the passes (`Il/Model.lean`, C31-C33, C71-C77) compare number constants by their bits: they do not show what happens when an operation on 0 is taken for the one on -0 (`C94_lookup_violated`) |
| C95 | `analysis/loop_info.rs` on the loops of C62, with sets as lists; the final sorts, which change nothing, are left out | walks: if two natural loops share a node, one header dominates the other, and its loop contains the other; the search for the parent keeps the smallest loop around so far; the same nesting shows that `LoopForest::new` (C88) is always valid |
| C96 | `check/widen.rs` 1–56 (the rest: C97) on the type store of C48/C66; the depth of recursion is bounded by the size of the store, which is shown to be enough | induction on the bound, with the values of unions and intersections from C66; array types are read by their elements; that nothing changes the second time uses that stored unions and intersections are canonical. |
| C97 | `widen_object_literal_props` on the same store | invariant of reachable stores: a stored shape lists each key once (from C68); so interning the changed shape merges nothing; the loops hand the store on, and what was widened earlier keeps its meaning later (C66) |
| C98 | `check/instantiate.rs` 16–230 (`Substituter` with its memo tables) on the store of C48; `InstantiationCache` is not modelled | invariant of the substituter: every memo entry is free of the parameter, carried through each operation of the store; partial because predicates and `infer` are not looked into (`C98_violated`); that the recursion ends is not proved: the statement is about calls that return |
| C99 | the same `Substituter` | specification without memo tables: an inductive relation between a type and its instances; invariant: every memo entry is in the relation, which is stable as the store grows; about calls that return |
| C100 | all operations of the store of C48 | the order read by sorting is the same in a later store; induction over the merging loops; a value that is in a table is found |
| C101 | the `Substituter` of C99 | the relation of C99 is shown to be a function, by induction, with C100 for every type that is built; two histories are then compared in the later store |
| C102 | the `Substituter` of C99, with an arbitrary function where the bound on the recursion is reached | every call goes to a type of smaller rank in the store of the outermost call; induction over the rank; the arbitrary function never matters |
| C103 | `InstantiationCache::instantiate_signature` on the substituter of C99; the sharded cache is a list from which any entries may be evicted | invariant: every entry is an instance under a mapping that the key determines; C101's uniqueness of instances; concurrent calls are not modelled; false in general (witness) |
| C104 | the type store of C48; looking up is `lookup` in its tables | invariant over operations: every stored signature is unnamed, every stored overload list and shape is its own normal form; kept by later operations because they agree on repeated input (C100) |
| C105 | the substituter of C98/C99 on a store that operations can build | by induction on the depth of recursion the tables map everything to itself and the store does not change; each level is interned again as itself (C104) |

## What is not modelled
The parser and lexer apart from what C37, C38, C69, C70 and the string and template literals of the escape model cover, the TypeScript checker apart from the type store (relations between types, evaluation and display of types are left out), lowering from AST to HIR (the step from HIR to instructions is C75, without `for`-`in`/`of`, destructuring, function declarations and types), IEEE-754 arithmetic outside the constant evaluator,
hash functions, threads inside DashMap/rayon, the file system and the CLI tools. Where a modelled function
takes such a thing as input it is a parameter.
