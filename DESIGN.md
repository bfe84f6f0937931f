# Formal model of ferlium: design

Source under study: `/repo` (enlightware/ferlium, Rust + the standard library written in ferlium itself,
`src/std/prelude/*.fer`).  Properties: `properties.jsonl`.  Proofs: `lean/` (Lean 4.33, no own axioms).

Layout of the Lean project:

* `Verif/Model/*.lean`  executable definitions, one per function of the code; every definition cites file and lines.
* `Verif/Proofs/*.lean` helper lemmas (nothing here is a claim).
* `Verif/Props/*.lean`  small independent specifications, the property theorems, and `example`s showing that
  hypotheses are satisfiable.  Property theorems are named `C<nn>_...`; incomplete ones end in `_partial`;
  theorems proving that the code *violates* the expected property are named `C<nn>_..._violated`.

General modelling rules: mutable state becomes a returned value; `panic!`, `unwrap` and failed `assert!`
become explicit error results; loops become structural or fuel recursion (with a proof that the fuel suffices);
`int`/`isize` is `BitVec 64` where overflow matters and `Int`/`Nat` elsewhere (the comment says so).
External code (Unicode tables, IEEE arithmetic, the type checker as a whole) is a parameter of the model whose
assumed laws are hypotheses of the theorem and are listed under "Assumptions" below.

## Trusted base

* Lean's kernel, and the standard axioms `propext`, `Classical.choice`, `Quot.sound` (checked by `#print axioms`).
* The hand translation Rust/ferlium -> Lean, made definition by definition with citations.
* Modelled: the parts cited in `Verif/Model`.  Not modelled: parser, type inference driver, trait solver,
  lowering to MIR, native code layout, the interpreters' value representation, Rust's own standard library and
  the `ena`, `ustr`, `unicode-normalization` crates.

## Plan per property

| id | what is modelled | how it is proved |
|----|------------------|------------------|
| C01 | `array<A>` = {data: slots, capacity, len, start}; every operation of array.fer | invariant + abstraction to `List`; induction over operation sequences |
| C02 | index resolution | decision theorem on the abstraction |
| C03 | slice bounds and slice loop | equality with `List.take/drop`; the too-negative bound deviates (finding F5) |
| C04 | `sort_by` merge sort of core_impls_dependent.fer | permutation for every comparator; ordered + stable for total preorders |
| C05 | reverse, concat | refinement to `List.reverse`, `++` |
| C06 | split/join | round trip by induction over the scanning loop |
| C07 | iterator adaptors as state machines over an arbitrary step function | trace semantics, coinductive-style "yields list" relation, one lemma per adaptor |
| C08 | Range / RangeInclusive iterators over `BitVec 64` | exact enumeration; violation at the extreme end (finding F4) |
| C09-C11 | open addressing table, arbitrary `eq`/`hash` | probe invariant, induction over insertions, refinement to finite maps |
| C12 | eq / unordered hash | extensionality + permutation invariance of the accumulator |
| C13 | hashing of values | congruence; violated for signed zeros (finding F1) |
| C14 | bit ops on `BitVec 64` | bitwise extensionality; violated for shift amounts (finding F3) |
| C15 | idiv/rem/euclid | on `BitVec 64`; host panic at MIN / -1 (finding F2) |
| C16 | comparison.fer | case analysis over a lawful comparison |
| C17 | fold identities | `BitVec 64` algebra |
| C18, C19, C20 | escaping and unescaping functions | induction over the text; needs that normalisation does not touch the escaped text (finding F6) |
| C19 | printer and recursive descent parser on data values | round trip by structural induction with remaining-input generalisation |
| C21 | EffType with both representations | canonical form theorem |
| C22 | DenseBitSet with inline/heap words | abstraction to `Nat -> Bool` |
| C23-C25 | Tarjan / Kahn / DFS loops of graph.rs | invariants of the explicit-stack loops |
| C26 | Cooper-Harvey-Kennedy iteration | fixpoint characterisation |
| C27 | path overlap decision | soundness against a tree store |
| C28, C52 | line starts, column counting, UTF-16 lookup, range fusion | induction over the text / the list |
| C29, C30, C51 | executor: resource checks, poisoning, cleanup, scoped accesses over a small guest language | invariants over all runs (also unfinished ones); termination by induction on (fuel, levels, rank, program) |
| C31, C32, C43, C45, C49, C50 | module registry with staleness flags and cascade | invariants over all histories with an arbitrary compile oracle |
| C33 | MIR bodies with a small-step semantics; the liveness pass | simulation up to dead private cells; exact characterisation of what is removed |
| C34, C35 | MIR bodies with a small-step semantics; the pass | simulation |
| C36 | will-return derivation | well-founded argument over call graph / block graph |
| C37 | table rewriting, pruning, sharing | equality of the unfoldings of a function to every depth; worklist and merge invariants |
| C38 | unification over type terms | soundness; violated for records of different width (finding F7) |
| C39 | uninhabitedness check on a type graph | soundness by induction over values |
| C40 | naming functions and the name search of displayed signatures | injectivity, termination by pigeonhole, loop invariant |
| C41 | vector-backed doubly linked list with free list | refinement to a list of (address, value) |
| C42 | buffer slots as `Option`s | part of the array invariant |
| C44 | string push/concat with normalisation as a parameter | conditional theorem |
| C46 | saturating constructor over an abstract float | decision theorem |
| C47 | mixing functions | inverse functions on `BitVec 64` |
| C48 | budget formulas | arithmetic |
| C56 | relational analysis (affine forms over symbols, facts, work list) and the removal of bounds checks | freshness of definitions along paths + invariant over executions; counterexamples |
| C57 | expansion of destructuring bindings into statements | statements simulate 'evaluate the source once, bind the components', by mutual induction over patterns; counterexamples |
| C58 | resolution of names to slots, captures of lambdas, evaluation of the resolved code | simulation of a big-step semantics with environments, induction over depth of calls and code |
| C59 | the same, literals read as calls of `from_int` | the same simulation under a condition; two counterexamples |
| C60 | the same, lowering of matches | the same simulation under a condition; counterexample |
| C61 | the names a function depends on, the groups made of them | every function name in compiled code is a dependency, by induction over the text; C23 for the order; counterexample |
| C62 | splitting of formatted strings at placeholders, the names known there, the pushes which build the value | induction over the text; laws of normalisation; counterexamples |
| C63 | slices of strings by user-perceived characters | equality with a filter over numbered characters |
| C64 | the overlap check of trait implementations, with the search for types which meet both constraint lists | any common instance survives every unification step; induction over the search; most general unifiers for the other direction; counterexamples |
| C65 | the same search: it ends with an answer | induction over pending constraints; invariant of an endless run |
| C66 | matches on literals: parsing of patterns, type and coverage checks, choice of an arm in the evaluator and in compiled code | fitting by field names is equality with the literal (mutual induction); unification as in C38; enumeration of values; counterexamples |
| C67 | matches on variants: checks of patterns, equations for payload types, projections of variables, choice of an arm | unification as in C38 gives equal payload types; positions of names; an explicit solution of the equations for acceptance; counterexamples |
| C68 | `serialize` and `deserialize`: library implementations and those derived for structural and named types | mutual induction over the value; sets and maps by the history refinement of C10; counterexample with names equal after normalisation |
| C69 | `to_json`, a reader of RFC 8259 with the values of `parse_json`, `json_encode`, `json_decode` | syntax trees between printer and reader; the induction of C68 with the data seen through JSON; counterexamples |
| C70 | `data_text_encode`, `data_text_decode` | C19 for the text; the induction of C68 with integral floats as integers; counterexamples |
| C71 | the effect table and solver, generation of inclusions for a core with callbacks and closures, the final types; a reference run | declarative effect system sound for runs by induction on steps; inference of each group gives types valid in it: the solved table as a valuation, invariant of the solver for inclusions `callback <= sink`; counterexamples |
| C72 | the same, functions without callbacks | the calls reachable as a solution of the equations (upper bound), C71 (lower bound) |
| C73 | the same, annotated parameters | the inclusion of each argument is generated, and every inclusion with known lower side holds in the solved table; counterexamples |
| C74 | generation of type equations for a core language with closures, assignments and early returns, solving (C38), defaulting to `never`, generalisation; an untyped run with fuel | declarative typing rules; well-typed programs do not go wrong by induction on fuel; what inference accepts is typed under every solution (induction on expressions), the solved table is a solution, and final types generalise it (typing closed under substitution); counterexamples |
| C75 | as C74 | separate typing rules which say that an expression has a type or no value; completeness of equation generation by induction on expressions with an assignment extended to the new variables, unification is most general (C38), and the converse by induction; principality from both |
| C76 | value numbering over the dominator tree (C26) with its undo log, renaming and removal; the MIR semantics of C33 | invariant of the walk by induction over the dominator tree (merged pairs, available expressions sound and complete); at run time a register holds what its representative holds, by induction over executions; simulation with removed steps; counterexample |
| C77 | forward analysis of the markers which equal the height of the stack, substitution of markers and removal; an abstract stack in the world | termination by a rank which every change of the analysis lowers; the fixpoint equals the meet over all paths; a known marker is defined on every simple path, hence before; plan invariant in processing order; simulation with removed steps (`Proofs/MergeSim.lean`, generic); counterexamples |
| C78 | the solver for known types: tables of concrete and generic implementations, rounds over constraints with unification, dictionaries, both caches, scopes, cycle check, depth limit | derivations `Gives` as the specification, unique by coherence and functional dependencies; the table always has a triangular solution, a stuck round contradicts `Known`; the cycle check never fires on a derivable goal because dictionaries shrink; induction on levels; counterexamples by running the search |
| C79 | the boundary of connected constraints, the defaults of numbers, variants, unit variants and expressions, over the constraints as a list; implementations by the solver of C78 | the boundary is the least set closed under shared variables (the loop grows or stops); invariant over the fold for numbers and variants; exact conditions for the others with substitution as specification; counterexamples by running |
| C80 | use trees, uses, the registry of modules with definition tables, lookup of members by name and by path, and of methods; hash maps as lists by name | use trees are flattened to plain imports (specification), resolution is a fold over them with an exact condition; the meaning of names as a relation over modules, shown equal to the lookup; permutation, growth and the counterexamples follow from it |
| C81 | elaborated nodes with scopes, the evaluator on them, the lowering with its builder, scopes, inline cleanup, landing pads filled at the end, and the execution of blocks; what operations do is a parameter | a compositional reference in which a scope is left in one way on all paths; invariants of the builder (blocks only grow, pads form chains outwards), simulation of cleanup, pads and nodes by structural induction with an inner induction on iterations, divergence by counting steps; the evaluator by induction; totality of the lowering by an invariant on the open blocks |
| C82 | types as trees of fields, states of storage as trees of possible states, the transfer of every operation on the normal and the error edge, alternatives by markers, projections and allocated storage, joins, the worklist, the check at the end; panics are `none` | a memory in which values that have to be dropped are tokens with one place each; the relation between states and memory is kept by every operation (leaves on paths, states of nodes as unions); what the worklist ends with is closed under edges, by the invariant that every alternative is waiting or covered; induction over executions |
| C83 | the worklist over nodes, failures as a number | closed as for C82; completeness by counting the nodes not yet known |
| C84 | display of types as tokens, with aliases and raw identifiers; the grammar of types as a relation with the flags of the grammar; from the syntax tree to the type | a deterministic parser, used only in proofs, finds whatever the grammar derives, so the grammar is unambiguous; mutual induction over types: the text of a readable type is derived from the grammar and means the type |
| C85 | the compiler's decisions (overlap of paths, writes of an argument, snapshots, borrowed bindings, mutability), execution with addresses and buffer identities, and a by-value execution with copy-in copy-back | simulation by induction on the number of steps: each name denotes a path that reads as the value of the name; mutable names have disjoint paths, immutable ones are apart from everything mutable; a call transfers the invariant to the frame of the callee and back |
| C86 | mutabilities, constraints, the union-find table and the three phases (constraints of the body, default, later comparisons) | the set of assignments which agree with the table; each step restricts it by something between the constraint and equality; a table with values for all variables only compares |
| C87 | functions as blocks of operations, the worklist with use counts, the three scans for candidates, the census of allocations; a machine with the meaning of operations as a parameter | counts = uses outside of removed operations; the removed set is the least closed one; a simulation in which the two states agree except on registers and cells that no operation which stays can name |
| C88 | the table of types with its worlds and cache, components of C23, the search for a world of the same shape; infinite unfoldings as all finite truncations | bisimulation; invariant of the table: closed, canonical, cycles stay within one world, worlds are strongly connected, the cache is right; if one member of a component is stored then so is all of it, and the search, being complete, finds it |
| C89 | one walk over the graph of a type with a map of visited handles, with rules for instantiation and for closing equations; the result stored by C88 | invariant of the walk: every index is filled with a kind whose inner types are represented under the final map; induction on the depth of unfoldings; visited handles are distinct entries of a finite table |
| C90 | the same walk without rules; storing the kinds in another table | as C89; a captured batch has no two equal kinds, as the first table is canonical |
| C91 | summaries beside the table, sweeps over a group until nothing changes | sweeps keep a pre-solution, whose size grows and is bounded; the result is a solution below every closed set of occurrences; occurrences along paths; C89 with the test for free variables discharged |
| C92 | blocks of operations with roots of places; a machine with registers, storage by root, saved points of the stack and an arbitrary world | a plan of a move (what the search establishes) and a simulation: equal up to the storage of the result outside the loop, and in the loop the result is there already with the value that the call gives; inputs are frozen from the insertion on; facts on all paths give initialised inputs; a weight (numbers of blocks of operations) that falls with each move |
| C93 | functions as lists of blocks; the plan, the test of bodies and the splice; a big-step machine with frames, bindings, storage stack, errors in flight and call depth over arbitrary operations | shape of a spliced function (old blocks but for the site, then the copies) and a simulation by induction on the run: inside the copy the registers of the callee are renamed and its parameters are what the operands of the call denote; the induction goes over the sites from the last to the first with the invariants of names, targets and error flow |
| C94 | the pass over function table and specializations with the renumbering of parameters, on the functions and the machine of C93 | a relation of functions that is symmetric in both sides (parameters shifted by the dictionaries of their own function, calls shortened by those of the callee) and a transfer of runs along it, used in both directions; counts of parameters by induction |
| C95 | the lint over source expressions; a denotational meaning with values, returns and other ends, in which all constructs that the lint does not enter are arbitrary functions of their parts; the correction at places | structural induction: a return and its value are the same as the end of a body, ends of scopes commute with this, and statements after a return do not run; tail positions as an inductive relation |
| C96 | binding of dictionaries, redirection of recursion and of call sites; the machine of C93; which calls are replaced is any function of callee, payload and dictionaries | a relation of programs: a function corresponds to another for arguments that agree with a binding of parameters to constants; simulation by induction on runs; the relation is symmetric, which gives the other direction |
| C97 | processes as programs of file operations on one state of cache, marker, lock and temporary files; every operation may fail, every process may die, others may damage the cache; digest, snapshots and names of temporary files are arbitrary | invariant over all histories: what passes the check was made, the holder of the lock and only it builds, a file to be renamed is complete; a measure of the steps left to each process |
| C98 | types as numbers in a table that may be recursive; specification by the types written out to every depth, and by a relation of parts for the converse | every visited pair is justified at the end of a successful search, then induction on the depth; the number of pairs not yet visited bounds the recursion; the score is a total order that separates names |
| C99 | capture and application of checkpoints, the recording and restoring builds with arbitrary native steps and arbitrary additions of source code; capture of single values is a parameter | source code extends the module (invariant over its operations); what is captured after an extension gives it again; induction over the steps of the build; counterexample for failed captures |
| C100 | the collector of generated functions, adding implementations, attempts that are taken back, the search for names, the commit to the module | what an attempt appends is cut off again (induction over nested attempts); invariant over actions that all numbers are given out; induction over the commit; counterexample for derivations that fail |
| C54 | structural operations on MIR bodies | relabelling and merging simulations; edge-count invariant of the queue; C25 for the order |
| C53 | collection of guarded/unguarded references and the cycle check over them | mutual induction over type expressions + C23; counterexamples for values |

## Findings (model / code / property disagreements)

Confirmed: a theorem in `Verif/Props` proves the deviation.

* F1 `0.0 == -0.0` but their hashes differ (`equal_float` compares values, `hash_float` hashes bits):
  `C13_float_zero_violated`.
* F2 `idiv`, `rem`, `idiv_euclid`, `mod` with (MIN, -1): only a zero divisor is tested, Rust's `/` then panics in
  the host: `C15_host_panic_violated`.
* F3 shifts and rotations by amounts >= 64 / >= 2^32 do not behave like mathematical shifts:
  `C14_shift_large_violated`, `C14_rotate_large_violated`.
* F4 an inclusive range ending at the largest integer never ends (wrapping increment).
* F5 a slice bound below `-len` is clamped to `len`, not to 0 (string slicing clamps to 0).
* F8 on ties both `min` and `max` return the right operand (so does `clamp`): `C16_tie_violated`.
* F9 the limit on owned-argument variants can be exceeded through nested forwarding: `C48_owned_variants_violated`.
* F11 a module whose *first* compilation fails is stored without dependencies, and a failed re-compilation keeps the old
  ones, so the cascade never retries it when the module it needs is repaired: `C32_first_failure_not_repaired_violated`.
* F12 with three nested faults (a failure, a failure in its cleanup, a fault in the cleanup of that) the initial failure is
  lost: the error mentions the last two faults only (`cleanup_after_error` 443-449 keeps what the inner cleanup recorded):
  `C30_initial_failure_lost_violated`.
* F13 the check of recursive type declarations accepts groups whose types have no finite value (one terminating variant
  anywhere in the group is enough): `C53_accepted_without_values_violated`,
  `C53_accepted_group_without_any_value_violated`.
* F14 a boolean read through a pointer which was itself loaded from storage is replaced, as a branch condition, by the
  pointer (`is_materialized` in negation.rs takes any `load` for a boolean); the branch then panics in the interpreter:
  `C34_negations_violated`.  Plain `if a[i]` is not affected (the element is copied into a local first); the shape arises
  when a function which branches on a parameter is inlined at a call whose argument is a place.
* F7 unification of record types walks the two field lists together without comparing their lengths: `{a: int}` is accepted
  where `{a: int, b: bool}` is expected and the other way round (`C38_records_violated`).
* F15 tail merging identifies blocks up to the names of the registers they define, without checking whether those registers
  are used in other blocks.  If a value is computed before a loop and used in it, and the last block of the loop performs
  the same steps, the block before the loop is replaced by the one in it: the value used in the loop is then never defined
  (`C35_tails_violated`: the original returns, the result panics, for every hash function).
* F16 call arguments which go through named subscripts returning places are prepared in nested `WithPlace` nodes around the
  call, and the overlap check inside the call compares the names of their bindings only.  `add_to_both(a->[g], a->[g])` (also
  written `add_to_both(a.value, a.value)` for a struct subscript) is accepted although both `&mut` arguments are the same
  place; `f(a->[g], a.0)` does not copy `a.0` (`C27_driven_arguments_violated`, `C27_driven_let_violated`).
* F17 the overlap check takes different literal indices of any user-defined place-returning subscript for different places;
  a subscript may return the same place for all of them (`C27_subscript_index_violated`).
* F18 the overlap check after elaboration unwraps the conversion of a literal index to `int` and panics for a literal of another
  type, where the check before elaboration treats it as unknown (`C27_late_index_panics`; whether a source program reaches
  this was not established).
* F10 a function value is never equal to itself: `C13_function_not_reflexive`.

* F6 escaped text is normalised again: the letter of an escape composes with a combining mark after it.  For the string line
  feed, U+0303 the literal reads as `\\ñ` (`C18_inspect_violated`), the data text is rejected by the reader
  (`C18_data_text_rejected`, `C19_strings_violated`) and the JSON text is no JSON string (`C20_json_violated`).
* F19 appending normalises only if the appended text starts with a combining mark; Hangul vowels and finals compose with what
  precedes them but are no combining marks: U+1100 then U+1161 is not normalised and differs from the concatenation
  (`C44_hangul_violated`).
* F20 data text: a floating point number without fraction is printed without a point and read as an integer, or rejected from
  2^63 on (`C19_floats_violated`); the empty tuple is read as unit (`C19_empty_tuple_violated`); payloads of variants which are
  no tuples or records become tuples (`C19_payloads_violated`), a tuple of one record becomes the record
  (`C19_record_payload_violated`); variants named `null`, `true`, `false`, `set`, `map` are not read back
  (`C19_keywords_violated`); a variant with another name than an identifier panics when printed
  (`C19_variant_names_violated`).
* F21 the printer of data text decides by comparing clusters whether a field name needs quotes and takes a letter with a
  combining mark for a letter; the reader stops at the mark (`C19_field_names_violated`).
* F22 bounds checks: predicates compare the *wrapped* difference of two forms with zero, so that `i + 1 < len(a) + 1` is
  taken for `i < len(a)`; with `i` the largest integer the check of `a[i]` is removed although it would fail
  (`C56_wrapped_comparison_violated`).  The least integer passes for a non-negative index of an empty array without any
  comparison (`C56_least_index_violated`).
* F23 bounds checks: defining a whole slot forgets the symbols of its fields, and a field without symbol is named by its
  contents *on entry*, also when it has been written since.  After `let n = len(a); a = h();` the new length has the symbol
  of the old one, and `if i >= 0 and i < n { a[i] }` loses its check (`C56_reassigned_array_violated`).
* F24 bounds checks: the form of an argument does not ask whether the parameter escaped, so a parameter passed on by mutable
  reference keeps the symbol of its value on entry: `if i >= 0 and i < len(a) { bump(i); a[i] }` loses its check
  (`C56_passed_on_parameter_violated`).
* F25 destructuring: a source which is a local or a component of one is not kept in a temporary but read again for each
  component, after earlier names of the pattern were bound (`patterns.rs:72-108, 339-478`).  A pattern which rebinds that very
  local reads the wrong value afterwards: `let p = ((1, 2), 3); let (p, q) = p;` gives `q` the value 2
  (`C57_shadowed_source_violated`).
* F26 destructuring: field accesses count as free to repeat, so `let (a, b) = x.f;` runs the code of a custom projection `f`
  twice (`C57_projection_runs_twice_violated`).
* F27 integer literals are calls of the plain identifier `from_int` (`desugar/expr.rs:121-129`), so a local of that name
  changes all literals in its scope, and a function of the module of that name the literals compiled after it:
  `let from_int = |x| 42; 5` is 42 (`C59_local_changes_literals_violated`, `C59_function_changes_literals_violated`).  These
  uses are not among the dependencies of a function either, so the order of the definitions decides whether a literal in
  another function means the function of the user (`C61_literals_violated`).  By reading only: loops use the plain names
  `iter` (`parser/helpers.rs:652`) and `next` (`desugar/expr.rs:469`) in the same way.  Literals of sets and maps use full
  paths, and `tests/language/std.rs:1722` shows that this is intended.
* F28 a match with only a default, `match f() { _ => x }`, never evaluates what it matches (`hir/match.rs:140-147`,
  `C60_default_only_match_violated`).
* F29 formatted strings look names up in the locals of the desugaring, which inside a lambda are only those since its
  parameters, and for an expression of the host are none of its locals (`desugar/expr.rs:133, 180-188`,
  `hir/emit_expr.rs:184-186`): `let x = 1; |y| f"{x}"` is rejected although `x` is in scope and may be captured
  (`C62_captured_name_rejected_violated`, `C62_host_local_rejected_violated`).
* F30 implementations whose inputs unify and whose output types do not are accepted as disjoint (`coherence.rs:383-390`),
  although both apply to the common inputs; the solver then takes the first one it meets
  (`C64_outputs_violated`).
* F31 an implementation is checked against those declared before it, and its constraints against what is implemented so far;
  later implementations which make the constraints true are not taken into account, so that the same three implementations
  are accepted or refused depending on their order, and accepted ones may overlap (`C64_order_violated`).
* F32 the overlap check panics on a constraint which is not about a trait (`coherence.rs:425-427`), for instance the layout
  constraint of a body which builds `Some(x)` for a generic `x` (`C65_panic_violated`).
* F33 the overlap check compares the constraints it meets by the numbers of their variables, which are fresh in every step, so
  that it does not recognise a recursion and overflows the stack: `impl Foo for int`, `impl<T> Foo for V<T> where T: Foo`,
  `impl Bar for bool`, `impl<T> Tr for W<T> where T: Foo`, `impl<T> Tr for W<T> where T: Bar`
  (`C65_endless_violated`).
* F34 a record pattern in a match on literals is accepted for values with other fields, because record types of different sizes
  unify (see C38): `match {a: true, b: false} { {a: true} => 1, {a: false} => 2 }` counts as complete and panics when it
  runs (`value.rs:681-684`, `eval.rs:3762`).  `C66_fields_violated`.
* F35 the compiler panics on a literal pattern with a field twice, as in `{a: true, a: false}`: the parser makes the record type
  without a check and `Type::record` asserts that names are unique (`helpers.rs:530-543`, `type.rs:2565-2567`).
  `C66_twice_violated`.
* F36 a variant pattern with more fields than the payload is accepted (see C38): `match v { A {a, b} => b + 1 }` on a value of
  `A {a: bool}` reads a component which does not exist (`match.rs:461-470`).  `C67_fields_violated`.
* F37 a variant pattern with nothing but `..`, as in `A {..}`, is given the payload `()` and refused for every record payload
  (`match.rs:284-285`), although the book says that `..` ignores remaining fields.  `C67_rest_only_violated`.
* F38 fields or alternatives whose names differ but are equal in Unicode normal form C: the derived implementations store the
  normalised names (`serde.rs:248-269`, `materialize_static_string`) while the compiler keeps names as written, so a record
  `{가: 1, 가: 2}`, the first name in conjoining letters, reads back with both fields 1, and a variant as another alternative or
  not at all.  `C68_names_violated`.
* F39 `data_text_decode` fails on the text of a variant whose only item is a record, such as `Some(p)`: the text `Some {...}` is
  read as a record payload (see C19), which is not of the tuple type.  `C70_record_payload_violated`.
* F40 `data_text_decode` fails on integral floating point numbers outside the integers, such as `1e300`.
  `C70_large_floats_violated`.
* F41 effects are lost through closures: `app(|| { app(|| write()); app(|| read()) })` with `fn app(f) { f() }` is inferred
  pure, and so is `fn both(g, h) { app(|| { g(); h() }) }`.  The effects of a closure of two or more calls are a variable
  whose value is the union of theirs; an inclusion with such a variable below merges the upper side *into* the value of the
  lower one, so nothing flows from the closure to the parameter it is given for (`try_add_effect_inclusion` 455-470).
  `C71_nested_closures_violated`, `C71_closure_over_callbacks_violated`.
* F42 an annotation on a callback is not enforced when the callback is forwarded by a function without annotation:
  `fn wrap(f) { take_read(f) }` accepts any `f` (its parameter gets `read` and a variable), and `wrap(save)` writes where only
  reads are allowed.  `C73_forwarded_callback_violated`, `C73_pure_callback_violated`.
* F43 a callback merged with a closure gets the type `! write, e` with `! e` for the function: giving a writing closure
  satisfies `write` and leaves `e` empty, so the caller is inferred pure.  `C71_merged_callback_violated`.
  A closure which calls a callback besides natives escapes the annotation as well: in
  `fn helper(f) { take_read(|| { write(); f() }) }` the write is not compared with `read`; `read` is added to `f` instead.
  `C73_mixed_closure_violated`.
* F44 types are lost through functions which do not return: unification accepts `never` against anything on both sides, also
  inside function types (unify.rs:663-664).  `if b { || 5 } else { abort }` is accepted, has the type `() -> never`, and its
  call may be used as a string although it returns a number.  `C74_diverging_function_values_violated`.
* F45 where a function type is expected, the parameters of a closure are paired with the expected ones and the surplus ones
  are dropped without an error (expr.rs:616-625): `run(|x| 5)` is accepted for `run : (() -> int) -> int`, and in the body
  the name `x` is unknown.  `C74_surplus_parameters_violated`.
* F46 a dictionary entry is reused after its stack cell is gone: entries are forgotten at `stack_restore`, but the
  forgetting is undone when the walk leaves the block which restores (cse.rs:1145-1152, 1225-1234), so that a block reached
  only through such blocks still sees the entry.  `loop { if a.m() { break }; if b { break } }; a.m()` in a generic function:
  both breaks release the cells of the iteration, and the call after the loop uses the entry looked up in the loop; the
  reference interpreter has popped the cell.  `C76_entries_across_regions_violated`.
* F47 the substitution of stack markers follows chains only through blocks with smaller numbers (stack_region.rs:117-130,
  176-185): if a block is numbered before one which dominates it, then a marker is replaced by one whose save is removed in
  the same run, and the result uses an undefined register.  `C77_unordered_blocks_violated`.  Nothing in the pass checks the
  order of blocks.
* F48 a yield does not clear the known markers (stack_region.rs:201-208), although the caller runs before the resumption and
  may leave cells on the shared stack; a region after the yield then releases the caller's cells as well.
  `C77_cells_of_the_caller_violated`.  In the reference interpreter the effect is hidden, because `end_project` releases
  everything above the frame of the accessor.
* F49 the implementations made for the module which is compiled are found without regard to visibility (trait_solver.rs:2502-2523).
  A public generic implementation of another module whose constraint is met by a private generic one puts the latter into
  this table, and from then on it answers direct requests as well, against what the test
  `impl_for_private_type_is_not_visible_across_modules` asks for.  `C78_private_violated`.
* F50 an implementation of the module which is compiled does not reset the scope of private implementations
  (trait_solver.rs:3100-3102 pushes only for other modules): reached from a foreign implementation, its own constraints see
  what is private to that other module.  `C78_scope_violated`.
* F51 whether a deeply nested type has a trait depends on what was asked before: 200 boxes are refused by a new solver and
  accepted after a request about 100 boxes.  `C78_history_violated`.
* Remark: `private_impl_scope` is not popped when matching a generic implementation fails with an error rather than with no
  match (trait_solver.rs:3100-3140).
* F52 the default of a number looks only at implementations without parameters and those already instantiated
  (`has_concrete_impl` trait_solver.rs:2483-2496): with `impl<T> Show for T where Num<T>` the type of a number which is shown stays
  open with a new solver and is `int` after anything asked for `Show` of `int`.  `C79_history_violated`.
* F53 if neither `int` nor `float` has all traits asked of a number, the order of the constraints decides whether it becomes
  `float`, which does not have them, or stays open: the search for the next candidate does not check it against the constraints
  before (defaulting.rs:478-486).  `C79_order_violated`.
* F54 the defaults of an expression and of unit variants do not check constraints with several open variables, even if all of them
  get defaults in the same pass (defaulting.rs:660 and 524 copy the constraints before), and do not compare the associated types
  of the implementation with those required (605-612, 690-696): the default is chosen although the constraint does not
  hold.  `C79_pair_violated`, `C79_output_violated`.
* Remark: the exclusion of variables in payloads of variants (defaulting.rs:349-356) has no effect: it only concerns variables which
  have no variants themselves, and those never get a variant type.  Part of `C79_variants_exact`.
* F55 a module imported twice by wildcards makes each of its names ambiguous, since the lookup counts imports and not items
  (module/mod.rs:2016-2046).  As `std` is imported implicitly (uses.rs:31-39), a program with `use std::*;` is accepted and then cannot use
  any name of the standard library.  Methods of traits are deduplicated (module_env.rs:1120-1121) and not affected.
  `C80_same_violated`, `C80_ambiguous_partial`, `C80_methods_exact`.
* F56 `use *;` and `use { * };` are accepted by the grammar (parser.lalrpop:239-250) and panic in import resolution: the module
  is not found and the span of the empty path is unwrapped (import_resolver.rs:101, ast/core.rs:68-75).  `C80_panic_violated`,
  `C80_panic_partial`.
* F57 `return return 7`, `return { return 7 }` and `return break 3` panic the compiler: the lowering of `return`
  (emit_mir.rs:2696-2712) lacks the check `current_block_is_terminated` which `break` has (2545), so a terminated block is
  terminated again (builder.rs:152).  Only `break return` is tested (tests/language/regression.rs:615-650).
  `C81_panic_violated`.
* F58 the lowering of a scoped access evaluates the arguments of the accessor before it enters the scope of their temporaries
  (emit_mir.rs:1558-1650): if a later argument fails or returns, the temporaries of the earlier ones
  (elaboration.rs:1123-1157, 1381-1526) are never dropped in compiled code.  `C81_leak_violated`.
* F59 in the evaluator, a failure of an argument or of the accessor itself leaves by `?` (eval.rs:3187-3245) without the cleanup of
  the block of the call; the handler of the frame (hir/function.rs:587) comes after enclosing blocks have truncated the
  storage.  Compiled code drops the temporaries when the accessor fails.  `C81_refused_violated`.
* F60 the ownership check sets storage that is allocated to absent without looking at what it held
  (verify.rs:1221-1224): a loop that allocates the same storage again with a value still in it is accepted and leaks.
  `C82_realloc_violated`.
* F61 writes inside opaque values (`mark_opaque_projection_live`, verify.rs:1546-1561) are accepted even if the storage is not
  allocated, and make it live again, so that a write into reclaimed storage passes.  `C82_inside_violated`.
* F62 at the end of a function, storage of its own whose type has an opaque part (a variant, a native type, a type with its own
  `Value`) is not checked at all (verify.rs:1606-1618), although values of such types are tracked as wholes: a forgotten drop of
  a string is accepted, and since what has to be dropped is opaque except for empty structures, the check has next to nothing
  to catch.  `C82_opaque_violated`.
* Remark: uses of registers that own something (`verify_register_consumption`) are counted over the text, not along paths; a
  value in a register that is stored in one arm of a branch only passes.
* F63 the effects of a function that is the result of a function are displayed without parentheses (type.rs:938-954):
  `() -> () -> int ! read` is the text of two different types; read back it is always the outer function that has the effect
  (the grammar gives the return type no effects, parser.lalrpop:438-443).  `C84_nested_violated`.
* F64 a function type with effects as a type argument, `Box<() -> int ! read>`, reads as an effect argument of `Box`.
  `C84_argument_violated`.
* F65 `never` is displayed by a name that the language does not have; read back it is a variant.  `C84_never_violated`.
* F66 payloads: a record payload inside an array, a record, a return type or a type argument, an empty record payload, and a
  tuple or record payload whose type has an alias are displayed in a form that cannot be read.  `C84_payload_violated`,
  `C84_empty_violated`, `C84_alias_violated`.
* F67 the list of keywords of the printer (format.rs:15-47) lacks `const`, `ref`, `subscript` and `yield`, which the grammar has;
  names of type definitions and aliases are never marked as raw identifiers.  `C84_keyword_violated`,
  `C84_definition_violated`.
* F68 effect arguments of type definitions are displayed as `()` or `(a, b)` when they are not single effects; the grammar has only
  names there.  `C84_effects_violated`.
* F69 type definitions are displayed without their module, even when another module has one of the same name.
  `C84_module_violated`.
* F70 `a[0] = { a = [3, 4]; 5 }` is accepted: the address of the element is computed before the value (eval.rs:3611-3632,
  emit_mir.rs:2079-2097), the value frees the buffer, then the old element is dropped and the new one is written in freed
  storage.  `C85_assign_element_violated`.
* F71 `f(a[0], { a = [3, 4]; 5 })` with a mutable first parameter is accepted: writes of later arguments are only compared with
  by-value arguments (borrow_checker.rs:212-236), not with mutable ones; `f` gets the address of a freed element.
  `C85_pass_element_violated`.
* F72 `a[0][{ a = [[3, 4]]; 0 }]` is accepted: the base of an index is exempt from the comparison with later writes
  (elaboration.rs:1406-1412) and its address is that of a freed element.  `C85_index_element_violated`.
* F73 "x is at least as mutable as y" is solved as "x and y are equally mutable" when both are still unknown
  (unify.rs:1782-1795; the comment there argues with transitivity).  So `fn f(x, y) { let mut a = 1; f(a, x); x = 1; f(a, 2) }`
  is rejected, and accepted when `x = 1` comes first; without the last call `y` becomes `&mut` although nothing requires it.
  `C86_complete_violated`, `C86_order_violated`, `C86_needless_violated`.
* F74 unknown mutabilities become constant before function types are compared (unify.rs:255-268), so a requirement that only shows
  in a comparison of function types is an error.  `C86_late_violated`.
* F75 (by design) a dead clone with its drops is removed without asking whether `clone` of the type returns (dce.rs:668-699, 728-743),
  while dead calls need that proof; an implementation of `Value` whose `clone` stops or loops makes the optimized program differ.
  The laws of `Value` that exclude this are not checked.  `C87_clone_violated`.
* F76 a world is a set (type.rs:3440-3444), so that two equal kinds in one component collapse, while the handles are counted as if
  they did not (3421-3425).  `type Expr = Add(Expr, Expr) | Mul(Expr, Expr)` has two equal payloads, which the desugaring stores as
  two kinds (desugar/types.rs:82-92, 302-307): one of the three handles stands for nothing, and the compiler panics when it looks at it
  (3464-3471).  With a third, different payload the handle stands for the wrong payload.  `C88_dangling_violated`,
  `C88_confused_violated`.
* F77 a recursive type that is written out twice (`type A = Leaf | N(B); type B = Leaf | N(A)`) is stored as two types, which are then
  not equal to each other, nor to `type C = Leaf | N(C)`.  `C88_twice_violated`.
* F78 effect arguments of named types are not compared when a component is looked up among the stored worlds (3053, 3127-3130): types that
  differ only there become one type.  Aliases cannot do this, as they reject such arguments; types found by inference may.
  `C88_effects_violated`.
* F79 instantiating a recursive type can make two of its payloads equal: `Tree<A, B> = Leaf | Left(A, Tree<A, B>) | Right(B, Tree<A, B>)`
  with `A = B = int`.  Unlike the type as written, the batch of kinds then has two equal kinds in one component (type_substitution.rs:248-311),
  which is the case of F76: the result refers to a handle that stands for nothing.  `C89_merged_violated`.
* F80 (reliances of licm.rs, no violation found) (a) writes through places that are loaded from a cell have no root and are
  not recorded by `record_writes` (456-523): the move is right only because borrowing makes such places exclusive;
  (b) `insertion_point` (558-616) looks at stack restores of the loop but not at those of the preheader itself: it is right
  because stack regions nest (`Wf.nested`); (c) a call in an unreachable block of a loop would be moved to where it runs
  with arguments that may not be initialised: the pass relies on unreachable blocks having been removed.
* F81 `check_inlinable` (inline.rs:498-509) looks for `project` and `end_project` only among the operations of a block and not
  in `invoke` terminators, where fallible projections stand. Its comment (482-489) and that of the planner (294-297) say that
  such a body must never be handed to the replacement of type variables, since a projection may become infallible while its
  end stays an `invoke`. `C93_scoped_excluded_violated`.
* Remark: `specialization_for` declines a call only if a type argument *is* a variable (monomorphize.rs:1122); an
  instantiation with a variable inside, such as a list of `U`, passes, although the reason given there holds for it as well.
* F82 `RecordingLoader::record` (std_snapshot.rs:63-65) returns the module without compiling once an earlier checkpoint could not be
  captured, and yet the module is handed out as the compiled library (`into_compiled_std`, 34-39; cache.rs:71-78). A process whose
  capture fails at `declare_traits` or `add_core` therefore runs with a library that lacks all later source code, or panics in the
  registrations that need it. Latent: the present library can be captured (`C99_library_after_failure_violated`,
  `C97_failed_capture_violated`).
* F83 The derivations of `Serialize`, `Deserialize` (serde.rs:165-335, 420-697) and `Inspect` (value.rs:1411-1419) reserve an
  implementation and roll it back if there is nothing to derive, but not if the making of the body ends with an error (`?`);
  `Value` does roll back for three of its five bodies (value.rs:2276-2331). The trials of defaults
  (defaulting.rs:605-612, 690-697) ignore the error and go on with the same solver. From then on the types count as implementing the
  trait, and `commit` panics with "committing a reserved generated function without code" (`C100_failed_derivation_violated`).
  No source program that reaches it was run.
* Remark: the comment at stack_region.rs:91-93 (a lone pair has nothing redundant) does not hold for an empty region, which
  is kept; and the pass is not idempotent, since a substitution may make a later restore redundant.

## Notes per model

* Int: `BitVec 64`; Rust's overflow panics on `/` and `%` are explicit error values.
* Float: finite binary64 values are rationals `m * 2^e`; IEEE round-half-even is defined concretely on `Rat` and
  proved to be a nearest representable value.  The guards of fold.rs 931-944 (which call is eligible at all) are not
  modelled.
* Hash: the mixing functions on `BitVec 64`, structural hashing over a typed value tree.
* Budget: counters and limits; the bodies of the specialised functions are not modelled.
* BitSet: words are `Nat`s below 2^64 with `Nat` bit operations; inline and heap representation are both modelled.
* LinkedList: the vector of nodes and the free list; element values are abstract.
* Graph: `src/graph.rs` loops as `partial_fixpoint`s into `Option`, so every theorem `= some` includes termination and the
  absence of index panics.  The iteration order of the hash sets is a parameter (any permutation).
* Dominance: `src/mir/dominance.rs`; `usize::MAX` sentinels are `none`.
* Effects: `slice::binary_search`, `sort` and `dedup` of Rust's library are modelled by their documented result on sorted vectors; `u32` names are naturals.

* Session: the compiler proper is the parameter `emit` (text, imports, visible revisions, own id -> dependencies or failure);
  assumed: reported dependencies are registered ids.  A revision is identified with everything it was made of.  Host modules
  are registered with fresh dependencies.  Not modelled: `reset`, the scratch module, diagnostics, MIR artifacts.  `seen` is a
  ghost field.  A host-registered module (without source) that depends on a recompiled module stays stale for ever; this is
  why `C32_stale_has_cause` mentions modules without source.  The cascade may recompile a dependent several times (diamonds).
* Exec: guest computation is abstracted to actions, failures, checks, transfers and data-dependent choices read from an
  arbitrary stream; a run is observed for a number of steps and `cut` means the observation stopped, so trace statements
  cover unfinished executions.  Assumed for C51: each loop body starts with a fuel check and every cycle of calls contains a
  function that checks the depth (what the compiler inserts; calls through function values that form a cycle without a
  checked function are outside the hypothesis).  Not modelled: storage, the MIR interpreter's `run_loop`.
* Source: a source text is a list of characters with byte and UTF-16 lengths; `line_starts` and the binary search are the
  code's.  Slicing outside character boundaries is `none` (a panic).
* Names: indices are naturals (no `u32` overflow).  Hypothesis of the signature theorems: the user's own parameter names are
  pairwise different.
* SpecTable: a body is its function operands, the ids in its `build_closure` operations, and an opaque rest; the digest is a
  parameter.  Assumed: bodies name existing functions, fewer than 2^32 - 2 functions.
* Uninhabited: types are nodes of an interned type graph (an arbitrary function from ids to shapes, cycles allowed); the
  check is a `partial_fixpoint` with its visited set.  Values are finite trees.
* TypeCycle: names in type expressions are already resolved; the regularity check of generic arguments is not modelled.
  For the value theorems, arrays may be empty and functions are values.
* Mir: one body with its registers, private cells and an arbitrary deterministic world for everything else (see the header
  of `Model/Mir.lean` for the simplifications).  `SameBehaviour` compares all states the world passes through and the way the
  call ends, in every world; executions which panic are excluded by `Safe`.  `Valid` collects the verifier rules relied on.
  A conditional branch on a place (rather than a loaded boolean) is stuck in the model.
* DeadStore: hash sets are finite sets; `concrete_type_is_trivial_copy` is a parameter.
* Peephole, BranchForward: the two boolean passes of C34; hypotheses beyond `Valid` are `Checked` and `Tidy` (rules of the
  MIR verifier: what is a boolean, that a register is not read before its definition in its block, operand shapes).  The
  cheap early exits in front of the passes are not modelled.
* Negation: the dominator tree is computed beforehand (the code builds it on first use).  Beyond `Valid`: `Scoped` (verifier
  rules: operand shapes, uses dominated by definitions, all blocks reachable: on a cycle of definitions in unreachable
  blocks the walk would not end), `NoLoadedPlaces` (excludes F14) and `ComparesBools` (type soundness: what is compared
  with `true` or `false` is a boolean).
* TailMerge: `simplify_tails` with its clean-up; the hash function is a parameter (the result does not depend on its
  quality).  Beyond `Valid`: `Separate` (registers defined by two blocks which do the same are not used elsewhere, which
  excludes F15; operands are defined before use within a block; stores have no result).  The relation maps a block to its
  representative; the correspondence of registers is the identity outside the registers of duplicated blocks and is
  extended along the block.  `Safe` is needed because collapsing a branch drops the evaluation of its condition.
* WillReturn: a function is a number; functions without a body (of the host) return, which is an assumption (the host
  functions of the standard library do not call back into scripts).  "Returns" is stated for a non-deterministic stack machine
  which ignores data: a branch may go either way, a call through a value may run any function any number of times, an
  activation may stop at any point; there is no infinite run of it.  `C36_summaries_exact` also gives the converse.
* Unify: types are finite trees; effects, mutability, types of subscripts and recursive types are left out (a variable equated
  with a type containing it is a failure, whether or not the compiler then makes a recursive type).  The union-find table of
  the crate `ena` is a list of links and values; which variable becomes the root is a parameter.  `Tidy` states what the rest
  of the compiler ensures (fixed numbers of parameters) and excludes F7.
* Borrow: expressions are trees with the kinds the check distinguishes; all control structures are `other` nodes whose children
  are evaluated in any order and number.  Semantics: a store of value trees, places are positions in them; a callee writes the
  caller's storage only through `MutableRef` arguments.  Every variable of the frame owns its storage (reference parameters: by
  the same check at the call).  Assumptions on indexing (`World.Lawful`): literal indices pick fixed, disjoint places.  Shape
  hypotheses: `WithPlace` only at the outside of an argument (`shaped`), and inside evaluated arguments only around places which
  do not overlap the observed one (`clear`); F16 shows what happens otherwise.  The lowering of driven calls (`drivenCall`) is
  modelled for subscripts returning places only.
* Inline: constants and dictionaries are operands by content; a subscript passed as hidden evidence, for which a call makes a
  cell (interpreter.rs:2334-2337) and a copy does not, counts as a constant; a register that holds a `PlaceResult` counts as
  bound to the place.  Operations other than direct calls, markers and the depth test are arbitrary programs that may call
  script functions; they see bindings and memory but not the depth.  `Sound` states what is assumed of the body that the
  planner is given (it is the body that a call runs, it does not return with an error in flight, and a function that calls
  itself tests the depth); fuel is part of the world.
* DeadEvidence: kinds of parameters are reduced to "dictionary or not", call sites to the number of their visible arguments;
  identities of functions are numbers with a map to the indices of the module.
* Lint: types and names of expressions are left out; the default branch of a match is the last branch; the panic of
  `Location::new` on a value that ends before its return starts is left out (the parser always gives a value behind the word).
* Specialize: an instantiation is what it does to payloads of operations; the types of parameters and constants, the
  simplification after the substitution, `worth_specializing`, the cache and its limits are left out. That a self-call passes
  the dictionaries of its function is an assumption of C96; the comment at monomorphize.rs:651-655 argues for it.
* StdCache: the paths of files, the log and the messages of errors are left out; a file that someone else puts at the place of
  a temporary file while its process writes it is left out; the limit of 120 s is a number of waits, because each takes 20 ms or
  more. The durability of `sync_all` after a crash of the machine is not modelled.
* AliasName: names of fields, mutability and effects are part of the head of a type and compared before the parts, where the code
  compares each before its part; only the state after a failure differs, and it is dropped. The text shown (escapes, parameter
  names for the type of the alias itself) is left out.
* Checkpoint: the table of sources, the graph of types that captured values refer to (C90), and the checks of node numbers in
  restored functions are left out; tables that are saved whole may be changed by source code in any way. A panic of native
  registrations on an incomplete module is not modelled.
* Collector: bodies are the lists of the functions they call; how implementations are searched and what is made for them is left
  out: the actions are arbitrary. Actions that name a function not given out are not considered. Modules found to be needed in an
  attempt are not taken back (trait_solver.rs:2230-2240), which only makes the set of needed modules larger; remembered output types (3725-3727) are left out.
* Edit: the structural operations of `src/mir/edit.rs`; constants are part of the operands, so pruning is not modelled.
* Normal, Escape, StringApi: text is a list of scalar values; the crates for normalisation and segmentation are parameters with
  the laws of `Normaliser.Lawful` (idempotence, joining, parts of normalised text are normalised, nothing below U+0300 is a
  second part of a composition, only letters and three signs among ASCII are first parts; checked once against the tables of
  Python's `unicodedata`).  `hangul` is a normaliser satisfying the laws.  The token of a string literal is modelled as the
  grammar does (a backslash protects the next character).  C20 is stated against the grammar of RFC 8259.
* DataText: the printer (in the library's own language) and the reader (in Rust).  Floating point numbers are a parameter with
  the assumption that `f64::to_string` prints decimal digits without exponent and that parsing its output is exact; numbers
  which are not finite are excluded.  The nesting and the number of rounds of the reader's loops are bounded by the length of
  the text.
* Relations: storage is a map from slots (root and path) to contents, distinct roots never overlap.  A register naming a slot
  is written as the slot; storing and projecting pointers, dictionaries and range loops (`recognize`, `yield_fact`) are not
  modelled, so no `Yield` or `Implies` fact arises.  The identities of the interner only order terms and predicates and are
  the parameter `rank`.  The work list takes any queued block; a run which exceeds its budget gives nothing.  The reference
  semantics (`RelationsRun`) lets an unknown call write its result, its mutable arguments and whatever escaped; the length of
  an array is taken to be initialised and not negative when it is projected.  Contents of uninitialised slots are `junk`, of
  which the analysis may say anything; operations of known meaning never read them.
* Destructure: patterns, the expansion of `let` (and of the patterns of `for` loops) into statements and an evaluation of the
  sources.  Checks of types are left out: a constraint or an ascription is a wrapper without effect.  Reading an index of a
  tuple is pure, reading a field may run code (custom projections), any other expression is a parameter which may change
  locals and the state.  A pattern `_` alone can be written in `for` only (`parser.lalrpop:1300-1304`).
* Closure: names, lambdas, blocks, assignments to locals, variants and matches on variants; resolution of names to slots and
  the evaluation of the result.  Types are left out: a wrong number of arguments and a name which stands for nothing fail when
  they are reached.  Values are copied wherever the code copies or borrows them; mutable references as arguments, `return`,
  `break` and loops are left out; native functions work on integers.  Both semantics bound the depth of calls by the same
  number.
* Deps: dependencies between the functions of a module.  Subscripts, the methods of trait implementations (compiled after all
  functions) and names with several segments are left out.
* Format: the two character classes of the `regex` crate and the rendering of values are parameters, source locations are left
  out.
* Coherence: the overlap check of `coherence.rs` on the types and unification of the model of C38.  Effects, the orphan rule
  and entries which the solver adds to the table of concrete implementations are left out.  The solver for types without
  variables is a parameter; assumed is that it finds what holds, with the outputs which hold, and that only traits with
  derivers are derived (`Trusted`).  "Holds" is the least relation closed under the implementations; constraints which are not
  about traits are taken as true.
* Match: matches with literal patterns on the types and unification of the model of C38.  Strings and integers stand for
  themselves.  The type of the value is given after `Repr`.  Results of arms, effects and the empty match (C60) are left out.
* VariantMatch: the same for variant patterns.  What arms demand of the types of their variables is a list of equations.  The
  type of a payload with `..` is taken from the type of the value instead of from the solved equations.  Qualified constructor
  names, arms left out because their payload has no values (C39) and the compiled form of tags are left out.
* Serde: closed types; a named type is its shape, which may mention it.  Equality and hash of keys are parameters, assumed to be
  lawful and not to tell apart values which differ only in the order of sets and maps (`Keys`).  `Same` is equality up to that
  order and up to a relation of floating point numbers.  User written implementations are left out; so is the check in the
  compiler that implementations exist.
* Json: a reader of RFC 8259 takes the place of the crate `json_event_parser`, with no limit on nesting; the values are those
  of `json.rs`.  Floating point numbers are finite and print as JSON numbers (`Numeral`), as Rust prints them.
* EffectInfer: effects only, for functions whose parameters are callbacks `() -> ()`, closures without parameters, and bodies
  which are sequences of calls; no values, traits, mutability, loops or branches.  Ranks and path compression of the union-find
  table are left out.  The instance of a type at a use, the effects of a closure, and the check of arguments follow
  `expr.rs`; that the types themselves unify is taken for granted.  `EffectRun` is a reference semantics in which natives perform
  the effects of their type.
