{"id": "C01", "title": "Arrays behave as double-ended sequences", "statement": "Starting from any array, after any finite interleaving of append, prepend, pop_back, pop_front, element assignment and element reads, the array holds exactly the elements an ideal list would hold, in the same order; pops return the element an ideal list would return (None exactly when empty), and growth, wrap-around and emptying never lose, duplicate or reorder an element.", "quantifier": "all element types, all initial arrays, all finite operation sequences", "why_tests_cant": "the internal position of the elements depends on the whole history; tests visit a handful of histories, wrap-around combined with growth has unboundedly many", "anchors": ["src/std/prelude/array.fer: append, prepend, pop_back, pop_front, array_ensure_capacity", "src/std/prelude/array_type.fer: array_physical_index, array_wrap_index"]}
{"id": "C02", "title": "Array indexing is exact or fails", "statement": "Reading a[i] for -len <= i < len yields element i, or element len+i when i is negative; for every other i the program fails with an index error and never observes or modifies any other element.", "quantifier": "all arrays in any reachable state, all integer indices", "why_tests_cant": "needs every (state, index) pair including extreme negative integers", "anchors": ["src/std/prelude/array_type.fer: array_resolve_index, array_signed_index_to_offset"]}
{"id": "C03", "title": "Slicing is clamped and contiguous", "statement": "slice(a, start, end) never fails and returns exactly the contiguous run of elements between the two bounds after clamping; a negative bound counts from the end; a bound beyond either end is clamped to that end.", "quantifier": "all arrays, all pairs of integers", "why_tests_cant": "two unbounded integer arguments times all lengths", "anchors": ["src/std/prelude/array.fer: array_slice_bound, array_slice", "src/std/prelude/core_impls_dependent.fer: slice"]}
{"id": "C04", "title": "Sorting is a stable ordered permutation", "statement": "Sorting any array with a comparison that is a total preorder gives an array that is ordered, contains the same elements with the same multiplicities, and keeps the relative order of elements that compare equal. With an arbitrary (even inconsistent) comparison the result is still a permutation and sorting terminates.", "quantifier": "all arrays, all comparison functions", "why_tests_cant": "needs every permutation of every length and adversarial comparators", "anchors": ["src/std/prelude/core_impls_dependent.fer: sort, sort_by, merge"]}
{"id": "C05", "title": "Reversal and concatenation follow the sequence laws", "statement": "reverse is its own inverse and maps element i to element len-1-i; concat has length len(a)+len(b), element i is a[i] or b[i-len(a)], and the inputs are not changed.", "quantifier": "all arrays", "why_tests_cant": "universally quantified over lengths and contents", "anchors": ["src/std/prelude/core_impls_dependent.fer: reverse", "src/std/prelude/array.fer: concat"]}
{"id": "C06", "title": "Splitting and joining are inverse", "statement": "Splitting a string (or array) on a separator and joining the pieces with the same separator gives back the original; no piece contains the separator; the number of pieces is one more than the number of non-overlapping separator occurrences.", "quantifier": "all strings/arrays, all non-empty separators", "why_tests_cant": "overlapping and adjacent separators appear at unboundedly many positions", "anchors": ["src/std/prelude/core_impls_dependent.fer: split, join", "src/std/string.rs: StringSplitIterator"]}
{"id": "C07", "title": "Iterator adaptors compute the list functions", "statement": "Collecting map, filter, filter_map, zip, enumerate, take, skip, chain (in any nesting) over any finite iterator yields exactly the list obtained by the corresponding list function on the collected source, and fold/all/any/count/sum/find/position/min/max return what the list function returns; an exhausted adaptor stays exhausted when its source does.", "quantifier": "all iterators (arbitrary state machines that terminate), all functions, all nestings", "why_tests_cant": "adaptors are state machines over arbitrary sources; tests cover single sources", "anchors": ["src/std/prelude/core_impls.fer: Map, Filter, FilterMap, Zip, Enumerate, Take, Skip, Chain iterators; fold, all, any, count, sum, min, max, find, position"]}
{"id": "C08", "title": "Ranges enumerate exactly their interval", "statement": "Iterating start..end yields start, start+1, ... up to but excluding end (descending when end < start), start..=end also yields end; iteration always ends; the reported length equals the number of values produced.", "quantifier": "all pairs of 64-bit integers", "why_tests_cant": "the boundary integers and 2^128 pairs", "anchors": ["src/std/prelude/core_impls.fer: RangeIterator, RangeInclusiveIterator, len"]}
{"id": "C09", "title": "Hash maps behave as finite maps", "statement": "After any sequence of insertions, looking a key up gives the value most recently inserted under an equal key, or None if there was none; insert returns the value it replaced; len is the number of distinct keys; iteration visits every key exactly once with its current value.", "quantifier": "all key types whose equality is an equivalence and whose hash respects it, all hash functions (including constant ones), all insertion sequences", "why_tests_cant": "collision patterns, probe wrap-around and resize points depend on the whole history and on the hash function", "anchors": ["src/std/prelude/hash_collections.fer: map_insert, map_get, map_contains, rehash, find_index_with_hash, insert_entry"]}
{"id": "C10", "title": "Hash sets behave as finite sets", "statement": "After any sequence of insertions a hash set contains exactly the values inserted (up to equality); insert reports whether the value was new; len is the number of distinct values; iteration visits each once.", "quantifier": "all lawful value types, all hash functions, all insertion sequences", "why_tests_cant": "same as for maps: history and hash dependent layout", "anchors": ["src/std/prelude/hash_collections.fer: set_insert, set_contains, iterators"]}
{"id": "C11", "title": "Hash table operations always terminate within capacity", "statement": "At every point of every history the table keeps at least a third of its slots free, its slot count is a power of two of at least 8 (or zero), and every lookup and insertion inspects at most as many slots as the table has and stops at a free slot or the key.", "quantifier": "all insertion histories, all hash functions", "why_tests_cant": "an infinite probe loop would only appear for an adversarial hash at one specific fill level", "anchors": ["src/std/prelude/hash_collections.fer: needs_grow, rehash, find_index_with_hash"]}
{"id": "C12", "title": "Equality and hashing of unordered collections ignore insertion history", "statement": "Two sets (maps) are equal exactly when they have the same members (the same key/value pairs) however they were built, and equal collections have the same hash.", "quantifier": "all pairs of insertion sequences and hash functions", "why_tests_cant": "two histories quantified at once", "anchors": ["src/std/prelude/hash_collections.fer: hash_collection_eq, hash", "src/std/hash.rs: UnorderedHasher"]}
{"id": "C13", "title": "Equal values hash equally", "statement": "For every built-in value type, if a == b then hash(a) == hash(b), whatever hasher state it is fed into.", "quantifier": "all pairs of values of int, float, bool, string, arrays, tuples, options", "why_tests_cant": "quantifies over all pairs of values", "anchors": ["src/std/math.rs: equal_float, hash_float, hash_int", "src/std/hash.rs: Hasher", "src/std/prelude/array.fer: hash"]}
{"id": "C14", "title": "Bit operations have their mathematical meaning", "statement": "bit/set_bit/clear_bit/test_bit address one bit and leave all others unchanged; count_ones + count_zeros is 64; rotating left then right by the same amount is the identity; shifting by a negative amount equals shifting the other way; amounts at or beyond the word size behave like the mathematical shift/rotation.", "quantifier": "all 64-bit integers and all 64-bit shift amounts", "why_tests_cant": "2^128 argument pairs, the interesting ones far from typical test values", "anchors": ["src/std/math.rs: shift_left, shift_right, rotate_left, rotate_right, count_ones, bit, set_bit, clear_bit, test_bit, clamped_negated_shift, clamp_to_u32"]}
{"id": "C15", "title": "Integer division satisfies the division law", "statement": "For d != 0, n == idiv(n,d)*d + rem(n,d) with |rem| < |d| and the sign of n; n == idiv_euclid(n,d)*d + mod(n,d) with 0 <= mod < |d|; division by zero is a recoverable program failure, and no pair of arguments brings the host down.", "quantifier": "all pairs of 64-bit integers", "why_tests_cant": "one bad pair among 2^128", "anchors": ["src/std/math.rs: idiv, idiv_euclid, rem, mod_"]}
{"id": "C16", "title": "Comparison helpers are consistent with the order", "statement": "For a lawful three-way comparison, <, <=, >, >=, !=, min, max and clamp agree with it: exactly one of <, ==, > holds, min/max return one of their arguments, are bounds, min(a,b) and max(a,b) together are a and b, and clamp returns a value within the bounds, equal to the input when already inside.", "quantifier": "all types with a lawful comparison, all values", "why_tests_cant": "generic over the type and the comparison", "anchors": ["src/std/prelude/comparison.fer: ne, lt, le, gt, ge, min, max", "src/std/prelude/core_impls.fer: clamp"]}
{"id": "C17", "title": "Algebraic simplification never changes a result", "statement": "Every rewrite the optimizer applies to integer arithmetic and comparisons (adding or subtracting zero, multiplying by zero or one, subtracting a value from itself, comparing a value with itself) gives the same value as the unoptimized operation, for every operand, including at overflow; the float rewrites preserve the value for every finite float, including signed zeros.", "quantifier": "all operands", "why_tests_cant": "all 2^64 operands per rule", "anchors": ["src/mir/pass/fold.rs", "doc/mir-optimization.md", "src/std/math.rs: Num impl"]}
{"id": "C18", "title": "String literal escaping round-trips", "statement": "Inspecting a string and reading the resulting literal back gives the same string; every escaped text is accepted by the reader.", "quantifier": "all strings", "why_tests_cant": "all strings over a million code points, including control and combining characters", "anchors": ["src/std/string.rs: inspect_string", "src/std/data_text.rs: escape_string", "src/parser/escapes.rs: apply_string_escapes"]}
{"id": "C19", "title": "Data text printing and parsing round-trip", "statement": "Parsing the text printed for a data value gives back an equal data value.", "quantifier": "all data values (nested arrays, tuples, records, sets, maps, variants, strings, numbers)", "why_tests_cant": "unbounded nesting and arbitrary strings", "anchors": ["src/std/prelude/data_text.fer", "src/std/data_text.rs"]}
{"id": "C20", "title": "JSON string encoding is valid and faithful", "statement": "The JSON text produced for a string is a valid JSON string with no raw control characters, quotes or backslashes, and decoding it yields the original string.", "quantifier": "all strings", "why_tests_cant": "all strings", "anchors": ["src/std/prelude/json.fer", "src/std/json.rs"]}
{"id": "C21", "title": "Effect sets form a canonical set algebra", "statement": "Union of effects is commutative, associative and idempotent; two effect descriptions denote the same set exactly when they compare equal, however they were built (including by substituting effect variables); membership, emptiness, singleton tests, iteration and ordering agree with the denoted sets; the subset test never says yes wrongly and is exact when the left side has no effect variable.", "quantifier": "all effect sets over arbitrarily many effect variables, all build orders", "why_tests_cant": "two internal representations switch at a size threshold", "anchors": ["src/types/effects.rs: EffType"]}
{"id": "C22", "title": "Bit-set containers are sets", "statement": "Inserting, removing, uniting and testing small integers behaves as on mathematical sets; equality and hashing depend only on membership, not on capacity or history; iteration lists the members in increasing order, once.", "quantifier": "all operation sequences, all element values", "why_tests_cant": "representation switches between inline and heap words depending on history", "anchors": ["src/containers.rs: DenseBitSet"]}
{"id": "C23", "title": "Dependency ordering is correct for every module/function graph", "statement": "Grouping definitions into mutually recursive groups returns every definition exactly once; two definitions are in one group exactly when each can reach the other; groups are ordered so that a group only depends on itself and groups processed before it.", "quantifier": "all finite directed graphs", "why_tests_cant": "all graphs", "anchors": ["src/graph.rs: strongly_connected_components, topological_sort_sccs"]}
{"id": "C24", "title": "Import cycles are reported exactly when they exist", "statement": "Cycle detection from a module returns a list of modules forming a genuine import cycle if and only if some cycle is reachable from that module.", "quantifier": "all finite directed graphs and start nodes", "why_tests_cant": "all graphs", "anchors": ["src/graph.rs: find_cycle_from", "src/compiler/pipeline.rs: find_module_deps_cycle"]}
{"id": "C25", "title": "Control-flow ordering visits exactly the reachable code", "statement": "The block order used by the optimizer lists every block reachable from the entry exactly once, starts with the entry, and lists no unreachable block; a block comes before each of its successors unless that edge closes a loop.", "quantifier": "all finite control-flow graphs", "why_tests_cant": "all graphs", "anchors": ["src/graph.rs: reverse_postorder"]}
{"id": "C26", "title": "The dominance relation is exact", "statement": "The optimizer treats block D as dominating block B exactly when every execution path from the entry to B passes through D.", "quantifier": "all finite control-flow graphs, all block pairs", "why_tests_cant": "quantifies over all paths of all graphs", "anchors": ["src/mir/dominance.rs"]}
{"id": "C27", "title": "Aliasing argument check is sound", "statement": "If the compiler accepts two argument places as not overlapping, then writing through one never changes what is read through the other, whatever values the indices take at run time.", "quantifier": "all pairs of access paths, all stores, all index values", "why_tests_cant": "dynamic indices take arbitrary values at run time", "anchors": ["src/hir/borrow_checker.rs: do_paths_overlap, let_arguments_overlapping_mutable"]}
{"id": "C28", "title": "Source positions are exact", "statement": "For every byte offset on a character boundary, the reported line is one more than the number of newlines before it and the column counts the characters since the last newline; IDE position conversion in scalar and UTF-16 units counts exactly the units before the offset; snippet extraction never splits a character.", "quantifier": "all source texts and offsets", "why_tests_cant": "all texts, multi-byte characters at all positions", "anchors": ["src/parser/location.rs: SourceEntry::get_line_column", "src/ide/position_index_lookup.rs"]}
{"id": "C29", "title": "Fuel-limited execution always stops", "statement": "With a fuel limit of n an execution passes at most n fuel checks before it is stopped with a fuel violation; after the violation the executor refuses every further entry with the same violation, and no source-level cleanup code runs any more.", "quantifier": "all programs, all limits, all failure points (including failures during cleanup)", "why_tests_cant": "all interleavings of failures and cleanups", "anchors": ["src/eval.rs: check_fuel, ensure_runnable, cleanup_after_error, poison"]}
{"id": "C30", "title": "The first fatal error is never lost", "statement": "Whatever sequence of failures and cleanup failures occurs, the final error carries the initial source failure, a failure during cleanup reports both failures, and once execution is poisoned it stays poisoned.", "quantifier": "all sequences of failures and cleanups", "why_tests_cant": "nested cleanup of arbitrary depth", "anchors": ["src/eval.rs: cleanup_after_error, poison, record_poisoning_error"]}
{"id": "C31", "title": "A fresh module never depends on a stale one", "statement": "After any history of compiling, re-compiling, failing and updating modules, no module reported as fresh has a direct or transitive dependency reported as stale, and a fresh module always has a runnable revision.", "quantifier": "all module graphs, all histories of successful and failing compilations", "why_tests_cant": "histories are unbounded and interleave failure, repair and cascades", "anchors": ["src/compiler/pipeline.rs: compile_with_source_id, mark_stale_transitively", "src/compiler/session.rs: ModuleEntry"]}
{"id": "C32", "title": "Repairing a module repairs its dependents", "statement": "If a module is recompiled successfully and all its transitive dependents compile against the new revision, then afterwards none of them is stale, each was last compiled with the imports it was registered with, and each was compiled after its dependencies.", "quantifier": "all acyclic module graphs and registration orders", "why_tests_cant": "diamond-shaped graphs of any depth and order", "anchors": ["src/compiler/pipeline.rs: stale_dependents_to_recompile, compile_with_source_id"]}
{"id": "C33", "title": "Removing overwritten stores preserves behaviour", "statement": "Deleting stores the optimizer judges overwritten never changes any value read, returned or passed to a call, on any execution path.", "quantifier": "all control-flow graphs, all executions", "why_tests_cant": "all programs and paths", "anchors": ["src/mir/pass/dead_store.rs"]}
{"id": "C34", "title": "Branch simplifications preserve behaviour", "statement": "Turning a two-way branch that stores true/false into a direct store, forwarding a stored boolean to the branch that reads it, and branching on an un-negated condition all leave every execution's observable results unchanged.", "quantifier": "all control-flow graphs, all executions", "why_tests_cant": "all programs and paths", "anchors": ["src/mir/pass/peephole.rs", "src/mir/pass/branch_forward.rs", "src/mir/pass/negation.rs"]}
{"id": "C35", "title": "Merging identical code preserves behaviour", "statement": "Merging blocks that perform the same steps and skipping empty forwarding blocks never changes the sequence of operations any execution performs.", "quantifier": "all control-flow graphs, all executions", "why_tests_cant": "all programs", "anchors": ["src/mir/pass/tail_merge.rs"]}
{"id": "C36", "title": "A function marked as always returning does return", "statement": "If the optimizer concludes that a function always returns, every execution of it finishes (no infinite loop, no unbounded recursion).", "quantifier": "all call graphs, all control-flow graphs, all executions", "why_tests_cant": "termination over all executions", "anchors": ["src/mir/pass/will_return.rs"]}
{"id": "C37", "title": "Dropping and sharing specialised functions is transparent", "statement": "After unreachable specialised functions are dropped and the remaining ones renumbered, every call still reaches the same function body; nothing reachable is dropped; sharing two specialisations only merges functions that behave identically.", "quantifier": "all module call graphs and tables", "why_tests_cant": "all graphs and numberings", "anchors": ["src/mir/pass/prune_specializations.rs", "src/mir/pass/specialization_table.rs", "src/mir/pass/share_specializations.rs"]}
{"id": "C38", "title": "Type unification is sound", "statement": "If two types unify, applying the resulting assignment to both gives types of the same shape: same constructors, same numbers of elements, same field names; and if unification fails there is no assignment making the types equal (for types without effects, mutability and recursion).", "quantifier": "all pairs of types", "why_tests_cant": "unbounded type nesting and variable sharing", "anchors": ["src/types/type_inference/unify.rs: unify_sub_or_same_type, unify_type_variable"]}
{"id": "C39", "title": "Exhaustiveness may only skip impossible cases", "statement": "When the compiler lets a match omit a variant because its payload is uninhabited, no value of that payload type can exist.", "quantifier": "all (possibly recursive) type definitions", "why_tests_cant": "recursive types of any shape", "anchors": ["src/hir/match.rs: is_definitely_uninhabited"]}
{"id": "C40", "title": "Type variable names shown to users are distinct", "statement": "Two different type variables of one displayed signature are never printed with the same name.", "quantifier": "all variable indices", "why_tests_cant": "unbounded indices, fall-back names", "anchors": ["src/format.rs: type_variable_index_to_string, type_variable_subscript"]}
{"id": "C41", "title": "Linked lists with stable addresses behave as sequences", "statement": "Under any sequence of append, prepend, insert-before, insert-after and remove, iterating gives the elements in the order an ideal list would; the address returned for an element keeps denoting that element until it is removed, whatever happens around it; removed buckets are reused without disturbing others; using the address of a removed element is rejected unless the address has been handed out again.", "quantifier": "all operation sequences", "why_tests_cant": "address reuse depends on the whole history", "anchors": ["src/list.rs: List"]}
{"id": "C42", "title": "Buffers never expose uninitialised or double-owned slots", "statement": "Through the array operations every buffer slot is read only when it holds an element, each element moved in is moved out or dropped exactly once, and dropping the array releases every remaining element exactly once.", "quantifier": "all operation sequences", "why_tests_cant": "ownership over all histories", "anchors": ["src/std/buffer.rs", "src/std/prelude/array.fer"]}
{"id": "C43", "title": "Affected modules are exactly the transitive dependents", "statement": "Asking which modules are affected by a change returns exactly the modules that depend on the given one directly or transitively, each once, and the query always terminates, even on cyclic dependency data.", "quantifier": "all module graphs", "why_tests_cant": "all graphs", "anchors": ["src/compiler/session.rs: get_modules_affected_by"]}
{"id": "C44", "title": "Strings stay normalised", "statement": "Every string produced by the string API is in normalised form, and appending piece by piece gives the same string as concatenating at once.", "quantifier": "all strings and operation sequences", "why_tests_cant": "composition of code points across the seam", "anchors": ["src/std/string.rs: push_normalized, concat"]}
{"id": "C45", "title": "Source and compilation versions tell the truth", "statement": "The source version of a module changes exactly when its text changes and then increases by one; the compilation revision increases on every compilation attempt.", "quantifier": "all update histories", "why_tests_cant": "all histories", "anchors": ["src/compiler/session.rs: add_or_reuse_module_source, update_module_source, next_compilation_revision"]}
{"id": "C46", "title": "Float values are always finite", "statement": "Every float produced by arithmetic, conversion or parsing is finite: overflow saturates to the largest finite value and NaN never appears.", "quantifier": "all operands", "why_tests_cant": "all float pairs", "anchors": ["src/std/math.rs: Float::new_saturating, add_float, sub_float, mul_float, div_float"]}
{"id": "C47", "title": "Hasher input framing is unambiguous", "statement": "Feeding a string to a hasher writes its length before its bytes, so different sequences of strings feed different word sequences to the hasher; each mixing step is a bijection of the hasher state for a given word and of the word for a given state.", "quantifier": "all sequences of strings, all states", "why_tests_cant": "2^64 states, all string sequences", "anchors": ["src/std/hash.rs: write_bytes, mix_word, final_mix"]}
{"id": "C48", "title": "Optimizer growth is bounded", "statement": "The number of specialised functions created for a module never exceeds the larger of four times its function count and 512 (two times and 256 for owned-argument variants), without arithmetic overflow for any count.", "quantifier": "all function counts up to the machine maximum", "why_tests_cant": "extreme counts", "anchors": ["src/mir/pass/budget.rs"]}
{"id": "C49", "title": "Module dependencies never form a cycle", "statement": "After any history of registering, compiling, failing and updating modules, the recorded dependency graph has no cycle and names only registered modules, and compiling or updating never ends in an internal panic of the session.", "quantifier": "all histories, all module texts and imports", "why_tests_cant": "a cycle can be closed by any of unboundedly many edits of any module in any order", "anchors": ["src/compiler/pipeline.rs: find_module_deps_cycle, compile_with_source_id", "src/graph.rs: find_cycle_from"]}
{"id": "C50", "title": "Recompilation always ends", "statement": "A compilation or a source update returns, however the dependencies of the recompiled dependents change on the way: the nested recompilations are at most as deep as there are modules.", "quantifier": "all histories, all compilers that report registered dependencies", "why_tests_cant": "each recompilation may change the graph the cascade is walking", "anchors": ["src/compiler/pipeline.rs: compile_with_source_id, stale_dependents_to_recompile"]}
{"id": "C51", "title": "Sandboxed execution always ends", "statement": "With a fuel limit set, every call of compiled code returns (with a result or an error): no combination of loops, recursion, failing cleanups and scoped accesses can keep the executor busy for ever.", "quantifier": "all programs whose loops and recursive functions carry the checks the compiler inserts, all data-dependent choices, all limits", "why_tests_cant": "termination over all executions", "anchors": ["src/eval.rs: check_fuel, check_call_depth, eval_loop", "src/hir/emit_functions.rs: wrap_body_with_call_depth_check_if_recursive", "src/types/type_inference/expr.rs: Loop"]}
{"id": "C52", "title": "Combining source ranges gives the smallest enclosing range", "statement": "The range computed for a group of source ranges covers each of them and is contained in every range that does; ranges of different sources are rejected and an empty group has no range.", "quantifier": "all non-empty lists of ranges", "why_tests_cant": "all lists and positions", "anchors": ["src/parser/location.rs: Location::fuse"]}
{"id": "C53", "title": "Recursive type declarations are accepted exactly when they can end", "statement": "Declaring a group of mutually recursive types always gives an answer: it is rejected as a product cycle exactly when some type contains itself whatever variants are chosen, otherwise rejected for lack of a terminating variant exactly when every variant payload mentions the group; and the types of an accepted group have finite values.", "quantifier": "all groups of type declarations, all nestings of tuples, records, arrays, functions and variants", "why_tests_cant": "all mutually recursive groups of any size", "anchors": ["src/desugar/module.rs: validate_type_cycle, TypeCycleInfo::collect_from_type"]}
{"id": "C54", "title": "Cleaning up the control flow of an optimized function never changes what it does and reaches its normal form", "statement": "Whenever an optimization of a function drops unreachable basic blocks, joins straight-line blocks or puts the blocks in another order, the compiled function has exactly the same observable behaviour as before (same external effects in the same order, same result, same errors, same non-termination), the clean-up always finishes, no reachable block is lost or duplicated, afterwards no unreachable block and no block entered only by a jump from one other block remains, and after reordering every block comes after the blocks that all paths to it pass through.", "quantifier": "for every well-formed function body (any control-flow graph, with loops, self-loops, jumps to the entry, shared targets and unreachable cycles), every environment it runs in and every execution, finite or infinite", "why_tests_cant": "Control-flow graphs and executions are unbounded; tests compare a handful of small graphs before and after, while a wrong renumbering or a merge across an edge that was counted wrongly shows only for particular combinations of loops, shared targets and dead blocks.", "anchors": ["src/mir/edit.rs:243-275", "src/mir/edit.rs:289-336", "src/mir/edit.rs:359-413"]}
{"id": "C55", "title": "Splitting and rejoining strings", "statement": "Splitting a string at a separator yields at least one piece; the pieces, joined with the separator, give the original string back, and no piece contains the separator as a run of user-perceived characters.", "quantifier": "all strings and non-empty separators", "why_tests_cant": "all strings, separators overlapping themselves", "anchors": ["src/std/string.rs: split_iterator, StringSplitIterator::next"]}
{"id": "C56", "title": "Removed bounds checks would have passed", "statement": "Wherever the optimizer replaces a checked array access by an unchecked one, the check would have succeeded in every execution reaching it, with the very offset the unchecked access uses; an access out of bounds still panics after optimization.", "quantifier": "all function bodies, all runs of the analysis, all executions (any inputs, any behaviour of the called functions)", "why_tests_cant": "unbounded control flow, all index and length values including overflow, all orders of the work list", "anchors": ["src/mir/pass/bounds_check.rs: eliminate_bounds_checks", "src/mir/pass/relations.rs: Predicate, State, transfer, refine, rejoin, run", "src/std/prelude/array_type.fer: array_resolve_index"]}
{"id": "C57", "title": "Destructuring binds each name to its component", "statement": "A destructuring binding evaluates its source exactly once and then binds each name of the pattern to the matching component of that one value, whatever the names are; all other bindings keep their values.", "quantifier": "all patterns of any nesting, all sources, all values and states, all behaviours of the called code", "why_tests_cant": "patterns nest without bound and the result depends on which names are reused and which accesses run code", "anchors": ["src/desugar/patterns.rs: expand_let_pattern, maybe_materialize_destructuring_source, is_replayable_destructuring_source", "src/types/typing_env.rs: get_variable_id"]}
{"id": "C58", "title": "Names mean their innermost binding and closures copy what they capture", "statement": "In every program each name means its innermost enclosing binding in the text (parameter, let, variable of a pattern), otherwise the function of that name; a closure works on copies of the values its names had when it was made, so later assignments outside do not reach it and assignments inside do not reach out or survive from call to call.", "quantifier": "all programs of functions, lambdas, blocks, assignments and matches, of any nesting; all states and behaviours of native functions; any depth of calls", "why_tests_cant": "nesting, shadowing and capture combine without bound", "anchors": ["src/types/type_inference/expr.rs: infer_abstract, collect_free_variables", "src/types/typing_env.rs: get_variable_id", "src/eval.rs: call_function_value"]}
{"id": "C59", "title": "Integer literals always mean their number", "statement": "An integer literal means its number (converted to the type needed by the library), whatever names the program declares.", "quantifier": "all programs, all choices of names", "why_tests_cant": "all programs and all names they may declare", "anchors": ["src/desugar/expr.rs: desugar (Literal)"]}
{"id": "C60", "title": "A match evaluates the value it matches", "statement": "A match evaluates the value it matches exactly once, with its effects, and then the first alternative which fits, otherwise the default.", "quantifier": "all programs, all matches", "why_tests_cant": "all programs, all effects of the matched expression", "anchors": ["src/hir/match.rs: infer_match"]}
{"id": "C61", "title": "Functions of a module may be written in any order", "statement": "Whatever the order in which the functions of a module are written, each one is compiled exactly once, after or together with all functions of the module it refers to, so the meaning of a program does not depend on the order of its definitions.", "quantifier": "all modules, all orders of their functions, all nestings of lambdas and shadowing locals, all iteration orders of hash sets", "why_tests_cant": "all modules and orders", "anchors": ["src/desugar/expr.rs: desugar (Identifier, Abstract)", "src/desugar/module.rs: fn_map, module_implementation_sccs", "src/hir/emit_hir.rs: emit_module"]}
{"id": "C62", "title": "Formatted strings show the values of their placeholders in place", "statement": "In a formatted string exactly the names in braces are placeholders and everything else is kept as written; the placeholders may name any binding in scope; the value is the text with each placeholder replaced by the rendering of its value, the values being rendered once each from left to right.", "quantifier": "all texts, all surroundings (functions, blocks, lambdas), all values and effects of rendering, all normalisations with the laws of form C", "why_tests_cant": "all texts, including adjacent, nested and unclosed braces, and all scopes", "anchors": ["src/desugar/format_string.rs: emit_format_string_ast, variable_to_string", "src/desugar/expr.rs: desugar (FormattedString, Abstract)"]}
{"id": "C63", "title": "Slices of strings", "statement": "A slice of a string consists of exactly the user-perceived characters between its two positions, where negative indices count from the end and positions outside are clipped; cutting a string at any index gives two parts which joined are the string.", "quantifier": "all strings, all indices", "why_tests_cant": "all strings and indices, including out of range and crossed ones", "anchors": ["src/std/string.rs: slice, normalize_index"]}
{"id": "C64", "title": "At most one implementation applies", "statement": "When the trait implementations of a module are accepted, there are no input types to which two implementations of the same trait apply; and implementations are only refused as overlapping if there are such types.", "quantifier": "all lists of implementations, generic or not, with any constraints, all types", "why_tests_cant": "all pairs of generic implementations and all instances of their types", "anchors": ["src/types/coherence.rs: check_trait_impl, impls_overlap, blanket_impls_overlap, constraints_may_be_satisfiable, trait_constraint_may_be_satisfiable", "docs/book/en/src/trait-implementations-and-coherence.md"]}
{"id": "C65", "title": "The overlap check gives an answer", "statement": "For any two implementations of a trait the check for overlap ends and says whether they overlap; the compiler neither panics nor recurses without end.", "quantifier": "all pairs of implementations, all visible implementations", "why_tests_cant": "termination over all sets of implementations with constraints", "anchors": ["src/types/coherence.rs: constraints_may_be_satisfiable, blanket_impl_may_match_constraint"]}
{"id": "C66", "title": "Matches on literals choose the first arm that fits", "statement": "In an accepted match with literal patterns, every value of the matched type reaches the first arm whose pattern it fits, records being compared by the names of their fields, and otherwise the default; without a default some arm always fits. A match whose patterns have the matched type, are distinct and are complete (or have a default) is accepted. Nothing panics.", "quantifier": "all types, all lists of literal patterns, all values of the type", "why_tests_cant": "all nested patterns, all types and all values; completeness is checked by enumerating values of arbitrary types", "anchors": ["src/hir/match.rs: infer_match, check_literal_patterns", "src/types/type.rs: all_values, cartesian_product_values", "src/parser/helpers.rs: record_literal_pattern", "src/hir/value.rs: try_matches_runtime_value", "src/eval.rs: select_case_alternative", "src/emit_mir.rs: Case"]}
{"id": "C67", "title": "Matches on variants choose the arm of the tag and bind its components", "statement": "In an accepted match on variants every value reaches the arm with its tag (or the default if there is none), and the variables of the arm are the components of the payload: by position for tuples, by field name for records, a subset of the fields with `..`. Without a default every tag of the type has an arm. A match whose patterns suit the payloads and cover the tags is accepted; two arms for a tag are refused. Nothing panics.", "quantifier": "all variant types, all lists of variant patterns, all values", "why_tests_cant": "all numbers and orders of tags, fields and variables, with types found by unification", "anchors": ["src/hir/match.rs: infer_match", "src/types/type_inference/unify.rs: unify_type_has_variant", "src/eval.rs: select_case_alternative"]}
{"id": "C68", "title": "Serialized values deserialize to the same value", "statement": "For every type with implementations of serialization (basic types, arrays, tuples, records, variants, named types including recursive ones, sets, maps and data itself) `serialize` of a value succeeds and `deserialize` of the result at the same type gives the same value; sets and maps have the same entries. Different values without sets and maps have different data.", "quantifier": "all types, all definitions of named types, all values", "why_tests_cant": "types are nested and recursive without bound and the implementations are derived by the compiler for each of them", "anchors": ["src/std/serde.rs: derive_serialize, derive_deserialize", "src/std/prelude/serde_impl.fer: serialize, deserialize"]}
{"id": "C69", "title": "JSON encoding and decoding are inverse", "statement": "`json_encode` of a value gives a text which is JSON (RFC 8259), and `json_decode` of the text at the same type gives the same value, where floating point numbers are compared by `==`; parsing the JSON text of data gives the data with sequences as arrays, units as null, and variants as records with `type` and `data`.", "quantifier": "all types, all values, all data", "why_tests_cant": "all nested values, strings and numbers", "anchors": ["src/std/prelude/json.fer: to_json, json_encode, json_decode", "src/std/json.rs: parse_json_stream, parse_json", "src/std/prelude/serde_impl.fer: deserialize"]}
{"id": "C70", "title": "Data text encoding and decoding are inverse", "statement": "`data_text_encode` of a value gives a text from which `data_text_decode` at the same type gives the same value, where floating point numbers are compared by `==`.", "quantifier": "all types, all values", "why_tests_cant": "all nested values, strings and numbers", "anchors": ["src/std/prelude/data_text.fer: to_data_text, data_text_encode, data_text_decode", "src/std/data_text.rs: parse_data_text", "src/std/prelude/serde_impl.fer: deserialize"]}
{"id": "C71", "title": "A function performs only the effects of its inferred type", "statement": "If a program is accepted, a call of a function performs only the effects (read, write, fallible) of the type inferred for it, where the effect variables of the type stand for what its callbacks do; in particular a function inferred pure performs none.", "quantifier": "all programs, all callbacks, all runs", "why_tests_cant": "inference solves inclusions over all uses of all functions, and callbacks are arbitrary functions", "anchors": ["src/types/type_inference/effect_solver.rs: make_dependent_effect, unify_effects, try_add_effect_inclusion, solve", "src/types/type_inference/substitution.rs: substitute_effect_type", "src/hir/emit_functions.rs: emit_functions", "src/hir/emit_hir.rs: default_output_effects_in_functions"]}
{"id": "C72", "title": "The effects of functions without callbacks are exact", "statement": "A program whose functions take no callbacks is accepted by effect inference, and the type inferred for each function has exactly the effects of the natives it may reach through calls, whatever the recursion; a call that returns performs all of them.", "quantifier": "all programs without callbacks", "why_tests_cant": "call graphs are arbitrary and cyclic", "anchors": ["src/types/type_inference/effect_solver.rs: make_dependent_effect, unify_effects", "src/hir/emit_functions.rs: emit_functions"]}
{"id": "C73", "title": "Callbacks stay within the effects annotated on parameters", "statement": "If a parameter is annotated with effects (`f: () -> () ! read`, or none), every callback passed for it in an accepted program performs only these effects.", "quantifier": "all programs with annotated parameters", "why_tests_cant": "callbacks reach the parameter through any number of functions", "anchors": ["src/types/type_inference/effect_solver.rs: try_add_effect_inclusion, expand_pending_dependency_inner", "src/types/type_inference/unify.rs: unify_sub_type"]}
{"id": "C74", "title": "Accepted programs do not go wrong", "statement": "If type inference accepts a module, running any of its functions on arguments of its inferred type never calls a value that is not a function, never passes a wrong number of arguments, never takes a non-boolean as a condition, never reads an unknown name and never hands a native function a value of another type; the call fails in a way the language defines, does not end, or returns a value of the inferred result type, and a function of result type never does not return.", "quantifier": "all modules of the core language (closures, generic and mutually recursive functions, assignments, early returns), all native functions that keep to their types, all arguments, all runs", "why_tests_cant": "types come from solving equations over whole groups of functions and are instantiated at arbitrarily many types", "anchors": ["src/types/type_inference/expr.rs: infer_expr, check_expr, infer_abstract", "src/hir/match.rs: infer_match", "src/hir/emit_functions.rs: emit_functions, default_unconstrained_diverging_returns_to_never", "src/types/type_inference/unify.rs: unify_sub_or_same_type"]}
{"id": "C75", "title": "Inference finds the most general types", "statement": "A group of mutually recursive functions is accepted exactly when some types for its functions follow the typing rules, whatever the order in which variables are unified; the inferred type schemes are the most general ones, so every use of a function which some typing allows is allowed by its inferred scheme, and no other.", "quantifier": "all groups of functions of the core language after any accepted groups, all native functions, all typings", "why_tests_cant": "refusing one typable program or losing one instance of a type needs a particular combination of equations; the claim quantifies over all typings of all programs", "anchors": ["src/types/type_inference/expr.rs: infer_expr, check_expr, infer_abstract", "src/hir/match.rs: infer_match", "src/hir/emit_functions.rs: emit_functions", "src/types/type_inference/unify.rs: unify_sub_or_same_type, substitute_in_type"]}
{"id": "C76", "title": "Merging repeated address computations is invisible", "statement": "Removing a computation of the address of a field or of a dictionary entry whose operands name the same places as an earlier one changes nothing a program does; afterwards no field address is computed again where it was computed on every path before; a dictionary entry is never reused after the storage it was put in is released.", "quantifier": "all bodies which follow the rules of the verifier, all control-flow graphs, all environments and executions", "why_tests_cant": "whether a value is still alive or still the same depends on every path of every control-flow graph; tests cover a few shapes, and the failing one needs two exits of a loop", "anchors": ["src/mir/pass/cse.rs: eliminate_common_subexpressions, Numbering::walk, number_block, forget_materialized", "src/mir/interpreter.rs: exec_dict_entry, exec_subfield, restore_stack"]}
{"id": "C77", "title": "Removing redundant stack markers is invisible", "statement": "Removing a stack save where another live marker already records the height of the stack, and a restore to the height the stack already has, changes nothing a program does; the operations removed are exactly those for which this is known on every path, and the pass always finishes.", "quantifier": "all bodies which follow the rules of the verifier, all control-flow graphs, all environments and executions", "why_tests_cant": "whether two markers agree depends on every path of every control-flow graph, loops included, and on the order in which blocks are numbered; tests cover a few nestings", "anchors": ["src/mir/pass/stack_region.rs: remove_redundant_stack_markers, analyze, step, resolve", "src/mir/pass/dce.rs: may_leave_frame_storage", "src/mir/interpreter.rs: StackSave, StackRestore"]}
{"id": "C78", "title": "The search for a trait implementation is right", "statement": "Asking whether types have a trait always ends with an answer. An answer names the one chain of implementations which shows it, with the associated types that follow, and the answers given during inference and during code generation agree. Every chain of visible implementations up to the nesting limit is found, whatever was asked before; an implementation that is not visible is not used.", "quantifier": "all sets of coherent implementations with any constraints and associated types, all modules and visibilities, all types, all sequences of earlier requests", "why_tests_cant": "the result depends on the order of requests through two caches and on the scopes of nested searches; tests ask one question of a fresh solver", "anchors": ["src/types/trait_solver.rs: solve_impl, solve_outputs, solve_impl_application, solve_impl_actual, match_blanket_impl, materialize_trait_runtime_arg_infos, can_use_other_impl, get_concrete_impl, get_blanket_impls, solve_application_outputs_without_materializing"]}
{"id": "C79", "title": "Default types are chosen by rule", "statement": "A type left open by a program gets a default by a fixed rule: a number becomes int if int has all the traits asked of it, otherwise float if float has them, whatever the order in which the uses are written and whatever else was compiled before; an open variant type becomes the type with exactly the variants used; an open type of an expression becomes int and that of a unit variant becomes () exactly if these have the traits. Only constraints connected with the signature through shared type variables are kept out.", "quantifier": "all sets of constraints over all types and traits, all sets of implementations and earlier requests to the solver", "why_tests_cant": "the choice depends on the order of constraints, on hash map order and on which implementations were instantiated before; tests fix all three", "anchors": ["src/types/type_inference/defaulting.rs: accessible_constraint_indices, default_orphan_variants_in_constraints, default_num_types_once, default_unit_variant_trait_inputs_to_unit, default_unconstrained_expr_ty_vars", "src/types/trait_solver.rs: has_concrete_impl"]}
{"id": "C80", "title": "Imports are accepted and names resolved by rule", "statement": "A list of use declarations is accepted exactly if every module it names is registered, every name imported from a module is public there, no name is imported twice and none is defined in the importing module; whatever the order and grouping of the declarations, and it never panics. A name then means the item of the current module, else the one imported by name, else the one item offered by wildcard imports; it is an error only if two different modules offer it. Names of other modules are public. Further wildcard imports and further definitions in other modules never silently change what a name means. A method used without its trait means that of the only trait in scope which has it.", "quantifier": "all sets of modules with all definitions, all use trees, all names and kinds of items, all extensions of the modules", "why_tests_cant": "the claims are about every combination of modules, groups, names and visibilities and about all future extensions of imported modules; tests have a handful of imports", "anchors": ["src/desugar/import_resolver.rs:28-226", "src/module/mod.rs:1803-1825", "src/module/mod.rs:1980-2048", "src/module/module_env.rs:1057-1248", "src/module/uses.rs:25-39", "src/ast/core.rs:68-93"]}
{"id": "C81", "title": "Cleanup on every way out", "statement": "Whatever the way out of a function body, the normal end, break, continue, return, a failure of an operation, or a failure of cleanup itself, every scope entered is left innermost first, its locals are dropped and the accessors begun in it are resumed in the reverse order, exactly once; a failure during the cleanup for a failure poisons execution and nothing more runs. Compiled code and the evaluator do the same. Every well-formed body is compiled.", "quantifier": "all bodies made of operations, blocks, cases, loops, break, continue, return and scoped accesses, nested in any way, all worlds that say what operations do and which of them fail, all states, all numbers of iterations", "why_tests_cant": "the number of combinations of nesting, exits and failures, also of failures inside cleanup, is unbounded; tests have a few dozen programs", "anchors": ["src/emit_mir.rs:290-326", "src/emit_mir.rs:556-772", "src/emit_mir.rs:1558-1650", "src/emit_mir.rs:1710-1725", "src/emit_mir.rs:1930-2735", "src/emit_mir.rs:2752-2825", "src/emit_mir.rs:2846-2985", "src/mir/builder.rs:101-245", "src/eval.rs:3037-3245", "src/eval.rs:3516-3815"]}
{"id": "C82", "title": "Accepted code neither uses missing storage nor loses values", "statement": "In compiled code that passes the ownership check, whatever branches are taken and whichever operations fail, no operation reads storage that is not allocated and initialised, writes to storage that is not allocated, copies a value that has to be dropped, restores an unknown stack marker or ends a projection that is not open; no value that has to be dropped is lost by overwriting, clearing or reclaiming its storage; and when the function returns or passes a failure on, no projection is open, owned parameters are empty and nothing that has to be dropped is left.", "quantifier": "all functions the check accepts, with any control flow, all executions: all branches, numbers of iterations and failing operations, all types of storage", "why_tests_cant": "the check is an abstract interpretation with joins and alternatives; whether its fixed point covers every execution of every function cannot be seen from functions that are accepted or rejected as expected", "anchors": ["src/mir/verify.rs:147-398", "src/mir/verify.rs:1154-1350", "src/mir/verify.rs:1352-1620", "src/mir/verify.rs:1622-1828"]}
{"id": "C83", "title": "Failures in flight are followed exactly", "statement": "The check of failure flow accepts a function if and only if in every execution it returns and yields with no failure in flight, passes a failure on with exactly one, gives up cleaning with exactly two and never goes on after two, and the number of failures is the same whenever a point is reached.", "quantifier": "all functions, all executions", "why_tests_cant": "control flow graphs are unbounded, and that the check rejects nothing else cannot be tested", "anchors": ["src/mir/verify.rs:392-398", "src/mir/verify.rs:472-560", "src/mir/terminator.rs"]}
{"id": "C84", "title": "A displayed type reads back as the same type", "statement": "The text in which a type is displayed (in messages, hover texts and signatures) can be written where a program expects a type; it is then read in exactly one way, and what is read is the type that was displayed. In particular two different types are never displayed alike.", "quantifier": "all types without subscript types and recursion, of any depth: variables, native types, variants, tuples, records, functions with any effects, arrays, applied definitions; all names and all environments in which the names mean what they name", "why_tests_cant": "display and grammar are separate pieces of code over unboundedly nested types; the cases that fail are combinations of constructs (a function returning a function, a record payload inside an array) that a sample of types misses", "anchors": ["src/types/type.rs:2627-2743", "src/types/type.rs:938-954", "src/format.rs:15-64", "src/parser/parser.lalrpop:368-514", "src/desugar/types.rs:763-950"]}
{"id": "C85", "title": "Borrowing is invisible: variables behave as values of their own", "statement": "A program behaves as if every variable, parameter and binding held a value of its own: binding or passing a variable behaves like copying it, a mutable reference behaves like copying the place in and back out after the call, and an immutable variable never changes. The copies that the compiler leaves out cannot be observed, in results, in panics or in which place is read or written.", "quantifier": "all programs of variables, tuples, arrays, nested places, assignments, conditionals, let bindings and (mutually recursive) functions with any mix of by-value and mutable parameters; all argument expressions including ones that write; all execution lengths", "why_tests_cant": "an alias that should have been a copy shows only when some later write, possibly in another function through another name, meets the alias while it is still used; the number of such combinations of names, places and calls is unbounded", "anchors": ["src/hir/borrow_checker.rs:33-343", "src/hir/borrow_checker.rs:451-501", "src/hir/elaboration.rs:1380-1505", "src/types/type_inference/expr.rs:1074-1130", "src/emit_mir.rs:2070-2120", "src/eval.rs:3611-3632"]}
{"id": "C86", "title": "Inferred mutability of parameters is sound and least", "statement": "When parameters carry no mutability annotation, an accepted function gives each of them a mutability such that every use is respected: what is assigned or passed to a mutable parameter is mutable, and equal function types have equal mutabilities. A parameter becomes mutable only if some use requires it, a function for which a choice exists is accepted, the order of the statements does not matter, and an error says what is really missing.", "quantifier": "all lists of mutability constraints over any number of variables, in any order, and all later comparisons of function types", "why_tests_cant": "variables are linked through arbitrarily long chains of calls and the solver merges them in the order of the source text; whether a chain is solved rightly depends on the whole list of constraints", "anchors": ["src/types/type_inference/unify.rs:218-269", "src/types/type_inference/unify.rs:1761-1922", "src/types/type_inference/expr.rs:5915-5954", "src/types/type_inference/substitution.rs:165-182"]}
{"id": "C87", "title": "Removing unused computations is invisible", "statement": "The optimizer removes comparisons, loads and tags whose results are not read, calls that are proved to return and whose results are not read, and storage that is only written or that is only constructed and dropped, with the places derived for them. The optimized function runs for as long, ends in the same way, and leaves the world and the caller's storage as the original does. Chains of unused results go in one pass, nothing that is used goes, the pass never panics, and its outcome does not depend on the order of hash maps.", "quantifier": "all functions in which a register has one definition, all meanings of the operations in which removable operations only compute, all states on entry, all lengths of runs, all orders of the hash maps", "why_tests_cant": "whether a result may go depends on all other uses in the function, which may be any graph of blocks, and on which of them go as well; the worklist visits them in the order of a hash map", "anchors": ["src/mir/pass/dce.rs:69-149", "src/mir/pass/dce.rs:157-179", "src/mir/pass/dce.rs:192-280", "src/mir/pass/dce.rs:298-335", "src/mir/pass/dce.rs:639-775", "src/mir/pass/dce.rs:790-849"]}
{"id": "C88", "title": "Equal types have one handle", "statement": "Types are compared by their handles in a table, recursive types included. Storing a batch of type definitions that may refer to each other succeeds and gives each definition a handle that stands for exactly that type, unfolded for ever. Handles keep their meaning when more types are stored. Two handles are equal exactly when the types are equal, whatever was stored before or in between, in whichever batch, under whichever numbering, and whatever order the hash sets have; the order in which fields and alternatives are written does not matter.", "quantifier": "all histories of stored batches, all batches of kinds with any references among each other and into the table, all infinite unfoldings, all orders of hash sets, all orders used to sort a group", "why_tests_cant": "equality of recursive types is about infinite unfoldings, and whether two definitions meet depends on everything stored before, on how a group is cut into components, on the order of a search with backtracking and on a cache", "anchors": ["src/types/type.rs:2479-2499", "src/types/type.rs:2523-2575", "src/types/type.rs:2895-2924", "src/types/type.rs:2939-3175", "src/types/type.rs:3188-3248", "src/types/type.rs:3250-3454", "src/types/type.rs:3464-3471"]}
{"id": "C89", "title": "Rewriting a type gives the rewritten type", "statement": "Instantiating a generic type gives the handle of exactly the type one gets by putting the given types for its variables, at every depth and also around cycles, and by replacing effects; types that do not contain the variables keep their handle. Closing an equation `t = T(t)` gives the one type that solves it. Both always finish, and any other handle of the same type is the same handle.", "quantifier": "all tables built by storing batches, all types of the table, all assignments of types to variables, all replacements of effects, all equations, all infinite unfoldings, all orders of hash sets", "why_tests_cant": "the walk keeps one map of visited types over a graph with cycles; that the rebuilt graph unfolds to the right infinite type, and that the walk ends, is an invariant over all graphs", "anchors": ["src/types/type_substitution.rs:46-102", "src/types/type_substitution.rs:171-311", "src/types/type_mapper.rs:53-135", "src/types/recursive_equation.rs:36-54", "src/types/recursive_equation.rs:122-151"]}
{"id": "C90", "title": "Types saved in a snapshot are restored", "statement": "Types captured in a snapshot and restored by another process, whose table has other types in it, stand for the same types as before, recursive or not. Different types stay different, and equal types equal. In the same process, at any later time, the same handles come back.", "quantifier": "all tables of the two processes, all lists of captured types, all orders of hash sets and of sorting, all types stored in between", "why_tests_cant": "capture and restore go through graphs without handles and through the search for equal recursive types in another table; the claim is about all graphs and all contents of both tables", "anchors": ["src/compiler/snapshot/type_graph.rs:83-122", "src/compiler/snapshot/type_graph.rs:164-226", "src/compiler/snapshot/type_graph.rs:229-315", "src/types/type.rs:3250-3454"]}
{"id": "C91", "title": "The free variables recorded with a type are its free variables", "statement": "The set of free variables that the table records with every type, and answers all questions about generic types from, contains a type, mutability or effect variable exactly when it occurs somewhere in the type, at any depth and around cycles. The iteration that finds the sets of types that refer to each other always ends, and the sets do not depend on how the types came into the table. So a type is called constant exactly when nothing in it is variable, and substitutions that skip types by their recorded variables give the same results as full ones.", "quantifier": "all tables built by storing batches, all types, all variables, all substitutions", "why_tests_cant": "the sets of recursive types are the least solution of mutually recursive equations, found by sweeps in place; a wrong solution shows only in a type that refers to itself through several others, and only when a substitution later skips it", "anchors": ["src/types/type.rs:2897-2911", "src/types/type.rs:3209-3248", "src/types/type.rs:3421-3445", "src/types/type.rs:3473-3602", "src/types/type.rs:1341-1355", "src/types/type.rs:1421-1456", "src/types/type_mapper.rs:63-74", "src/types/type_mapper.rs:109-113", "src/types/recursive_equation.rs:148-150"]}
{"id": "C92", "title": "Moving calls out of loops does not change what a program does", "statement": "The optimiser moves a call whose arguments do not change in a loop, with the storage of its result if that is made in the loop, to the block before the loop. Every run of the function before is matched by a run of the function after with the same number of blocks that stops, leaves or goes on in the same way, in the same world, with the same contents of all storage except that of results of such calls. The search for moves and the moves themselves always end, for every function and every order in which loops are tried, without a failure, and then nothing is left to be moved. Which storage a place belongs to is found exactly and is not changed by a move.", "quantifier": "all functions that satisfy the rules of the verifier, all dominance relations that are sound, all orders of loops, all runs; termination for all functions whatever", "why_tests_cant": "a wrong move shows only for a particular combination of writes in the loop, in the block before it, paths that do not reach the call, and points of the stack to which the loop returns; the order of loops depends on a hash map", "anchors": ["src/mir/pass/licm.rs:69-126", "src/mir/pass/licm.rs:133-169", "src/mir/pass/licm.rs:171-205", "src/mir/pass/licm.rs:207-311", "src/mir/pass/licm.rs:313-380", "src/mir/pass/licm.rs:382-413", "src/mir/pass/licm.rs:415-544", "src/mir/pass/licm.rs:546-616", "src/mir/pass/licm.rs:618-642", "src/mir/pass/dataflow.rs:954-981"]}
{"id": "C93", "title": "Copying the body of a called function in place of the call does not change what a program does", "statement": "The optimiser replaces calls of small functions by copies of their bodies. Every call in the program that ends - normally, with an error that the program sees, or with the stop after an error in cleanup - ends in the same way after the replacement, with the same error, the same storage stack and the same effects, also from a smaller call depth; only calls that stop at the limit on the depth are excepted, since copies do not count as calls. Bodies are copied only where none of them tests the depth, suspends, or handles errors while one is in flight; the blocks with an error in flight are found exactly; a function grows by at most 128 operations over its size before optimisation in all rounds together; and the pass ends without a failure.", "quantifier": "all programs, all functions and call sites that meet what the verifier checks, all choices of sites, all runs that end", "why_tests_cant": "the exits of a copied body must restore the storage stack, keep the errors in flight and lead to the right successor for every shape of body, every nesting of calls and every place where an error can arise; tests cover single shapes", "anchors": ["src/mir/pass/inline.rs:163-202", "src/mir/pass/inline.rs:212-335", "src/mir/pass/inline.rs:460-476", "src/mir/pass/inline.rs:490-543", "src/mir/pass/inline.rs:546-602", "src/mir/pass/inline.rs:620-762", "src/mir/pass/budget.rs:45-55", "src/mir/interpreter.rs:500-645", "src/mir/interpreter.rs:1239-1282", "src/mir/interpreter.rs:1612-1672"]}
{"id": "C94", "title": "Dropping the dictionaries that specialized functions no longer read does not change what a program does", "statement": "After specialized copies of generic functions have their dictionaries built in, the compiler removes the dictionary parameters of these copies and the operands that pass them. Every call of every function of the module ends in a given way - normally, with an error, or with the stop after an error in cleanup, with given storage and effects - before the removal exactly if the same call without the dictionaries ends in that way after it. No specialized copy keeps a dictionary parameter and all its other parameters stay, doing it a second time changes nothing, and the compiler does not stop as long as the dictionaries are unread and calls pass constants for them.", "quantifier": "all modules whose specialized copies are only named where they are called, all functions, all arguments, all behaviours of the other operations, all runs that end", "why_tests_cant": "every position of a parameter, every call site in every block and in every block end, and every chain of specialized calls must shift in step; one missed site shifts all arguments silently", "anchors": ["src/mir/pass/dead_evidence.rs:49-92", "src/mir/pass/dead_evidence.rs:94-100", "src/mir/pass/dead_evidence.rs:107-165", "src/mir/pass/dead_evidence.rs:168-185", "src/mir/edit.rs:143-167", "src/mir/interpreter.rs:1239-1282"]}
{"id": "C95", "title": "A return that the compiler calls needless can be removed", "statement": "The compiler warns about needless returns. If a programmer removes the word `return` at every place of these warnings, and the unreachable statements after it, the function does exactly what it did before: it ends with the same value and the same state, stops in the same way, or does not end. The warnings come exactly at the returns written in the program whose value would flow out of the function anyway and that do not lie in code reported as unreachable; earlier warnings stay.", "quantifier": "all function bodies in which returns stand at different places, all earlier warnings, all states, all meanings of the constructs that the lint does not look into", "why_tests_cant": "the claim is about the meaning of every program with nested blocks and branches; tests look at the warnings of single programs and never compare what the corrected program does", "anchors": ["src/compiler/lints.rs:15-22", "src/compiler/lints.rs:24-35", "src/compiler/lints.rs:47-97", "src/compiler/diagnostics.rs:34-37", "src/parser/location.rs:114-117"]}
{"id": "C96", "title": "Specialized functions do what the generic ones do", "statement": "When the compiler replaces a call of a generic function with known trait implementations by a call of a function made for these, the program does exactly what it did: the made function ends as the generic function ends on the same arguments, with the same results, memory and effects, at every depth of recursion, and every other function ends as before. The made function does not read the implementations it was given, so that they can be removed; it does not recurse into the generic function; and no call that could go to a made function is overlooked.", "quantifier": "all programs, all sets of made functions, all choices of which calls to replace, all meanings of operations, arguments, memories and depths of calls", "why_tests_cant": "the made functions of a program call one another and themselves, and are entered from everywhere; tests compare the results of single programs at single instantiations", "anchors": ["src/mir/pass/monomorphize.rs:591-609", "src/mir/pass/monomorphize.rs:660-683", "src/mir/pass/monomorphize.rs:927-957", "src/mir/pass/monomorphize.rs:1028-1082", "src/mir/pass/monomorphize.rs:1103-1178"]}
{"id": "C97", "title": "The shared cache of the standard library never serves a bad library", "statement": "Any number of compiler processes may start at the same time on one machine, die at any moment, and meet failing file operations. A process that gets a library gets one that was compiled by itself, or restored from a complete snapshot that a process of the same build took; a half-written or damaged file is never taken for one. No two processes build or publish the cache at the same time, a lock is never left behind by a process that ended, and every process has its library after a bounded number of its own steps. Once published without failures, the cache stays, every process that starts later is served from it at once, and none builds it again.", "quantifier": "all numbers of processes, all interleavings of their file operations, all failures and deaths, all damage to the file that the check detects, all clashes of names of temporary files", "why_tests_cant": "the claim is about all interleavings of processes and all moments of failure; tests run single processes, or a few with the scheduling that happens to occur", "anchors": ["src/compiler/snapshot/cache.rs:24-115", "src/compiler/snapshot/cache.rs:123-136", "src/compiler/snapshot/cache.rs:155-180", "src/compiler/snapshot/cache.rs:200-225"]}
{"id": "C98", "title": "A type shown by an alias is that alias with its arguments", "statement": "When a message or the IDE shows a type by the name of a generic alias, such as `Pair<int, string>`, the alias applied to the arguments shown is exactly the type, to any depth, and also for recursive types; every parameter has its argument, and `_` is shown only for recursive aliases. Conversely, every type that is an application of an alias is recognised as one with the right arguments; of several aliases one with the most known arguments and then the shortest name is shown. The search ends on recursive types as well, and which alias is shown does not depend on the order in which the aliases were defined.", "quantifier": "all tables of types including recursive ones, all types, all lists of aliases with distinct names", "why_tests_cant": "types nest and recur without bound and the matching of recursive types assumes what it is about to prove; tests name a few types", "anchors": ["src/module/type_alias_name.rs:28-75", "src/module/type_alias_name.rs:85-99", "src/module/type_alias_name.rs:101-151", "src/module/type_alias_name.rs:153-266"]}
{"id": "C99", "title": "The standard library restored from a snapshot is the compiled one", "statement": "A process that restores the standard library from a snapshot has the same library as one that compiles it: the same functions, subscripts, types, aliases, traits, implementations, names and their meanings, also where a name was defined again, with the native code registered in between. Taking a snapshot does not change the library that is compiled meanwhile. A snapshot with too few or too many parts, with sizes that do not fit, or taken with other native code is refused. If no snapshot can be taken, the library is nevertheless complete.", "quantifier": "all sequences of native registrations and pieces of source code, all additions that source code makes, all contents of the tables, all snapshots", "why_tests_cant": "a test compares one library, and mostly the sizes of its tables; the next release has other contents, and a failure of the capture does not happen with the present one", "anchors": ["src/compiler/snapshot/checkpoint.rs:15-236", "src/compiler/snapshot/std_snapshot.rs:30-39", "src/compiler/snapshot/std_snapshot.rs:50-124", "src/compiler/snapshot/std_snapshot.rs:140-225", "src/std/mod.rs:74-96", "src/module/id.rs:200-228"]}
{"id": "C100", "title": "Functions made while implementations are searched exist, are complete and take no one's name", "statement": "While the compiler searches for implementations of traits it makes functions and implementations, also in attempts that it takes back. An attempt taken back leaves no trace. The same holds for a search that fails. When the search is over, every function that a new function or implementation names exists and is the one meant, every new function has code, every new function has a name that nothing had before, and all names of the module keep their meaning. Finding a name ends.", "quantifier": "all sequences of making, reserving, filling and adding, with attempts nested to any depth; all names and all modules", "why_tests_cant": "numbers go wrong only when attempts, reservations and collisions of names meet in one search, and a wrong number is seen only when the wrong function is called", "anchors": ["src/module/trait_impl.rs:297-391", "src/module/trait_impl.rs:406-425", "src/module/trait_impl.rs:666-675", "src/types/trait_solver.rs:2159-2180", "src/types/trait_solver.rs:2214-2240", "src/types/trait_solver.rs:3694-3730", "src/module/mod.rs:87-102", "src/std/serde.rs:165-347", "src/types/type_inference/defaulting.rs:605-612"]}
