# Formal model of ruby-fast-lsp in Lean 4: design

## What this is

`/verif/lean` is a Lake project whose modules model parts of ruby-fast-lsp (Rust, in `/repo`) as small total
functions and state machines, and prove the properties of `properties.jsonl` about those models for all inputs,
states and histories.  The code is read as text; it is never built or run here.

| Place | Content |
|---|---|
| `lean/Verif/Model/*.lean` | the models; each definition cites the file and lines it models and says where it simplifies |
| `lean/Verif/Spec/*.lean` | specifications: definitions in terms of which properties are stated, written without the model's functions (only its data types) |
| `lean/Verif/Lemmas/*.lean` | helper lemmas (not claims) |
| `lean/Verif/Props/*.lean` | the claims: theorems named `cNN_…`, and a concrete case (`cNN_example…`) beside them |
| `properties.jsonl` | the properties in words |
| `MANIFEST.json` | which theorems settle which property, with what they leave out (generated by `tools/manifest.py` from `tools/claims.json`) |
| `AXIOMS.md` | the axioms each of those theorems depends on (generated by `tools/axioms.py`) |
| `seeded/LOG.jsonl` | the mutation log: wrong programs tried against the theorems |

A theorem whose name ends in `_partial` proves less than its property; the note in `MANIFEST.json` says what is missing.  Where
the property is false of the code there is a theorem with the counterexample, and the partial theorem states what does hold.

## Trusted base

* Lean 4.33.0's kernel, and at most the axioms `propext`, `Classical.choice`, `Quot.sound`.  No axioms of our own, no `sorry`,
  no `native_decide`, no `bv_decide`.  `AXIOMS.md` lists the axioms theorem by theorem.
* The reading of the Rust code: the tie between model and code is the comment on each definition.
* Things modelled by assumption, always visible as parameters or hypotheses of the theorem: the compressor
  (`decompress (compress x) = some x`), SHA-256 (an arbitrary function; collision freedom only where a hypothesis says so),
  Unicode tables (`xid_start`, `is_uppercase`, `to_lowercase`, …: arbitrary functions with the stated facts), Prism's syntax tree.
* Rust's standard library behaves as documented: `sort_by_key` is a stable sort, `HashMap`/`BTreeMap` are finite maps, `Vec` is a
  list, `binary_search_by` is the documented search, a poisoned lock is not considered.
* Machine integers are unbounded `Nat`/`Int` unless a model says otherwise; overflow panics of 64-bit counters and of 32-bit ids
  are out of scope and said so where they occur.
* Concurrency: critical sections guarded by one mutex are atomic steps; what happens between two of them is interleaved
  arbitrarily.  tokio `Notify::notify_waiters` wakes every `Notified` future created before the call, `watch` channels are
  revision counters, `flock` locks are ideal shared/exclusive locks released when the process ends, POSIX `rename`, `unlink` and
  `fsync` are as described in `Model/CacheFs`.
* Not modelled at all: parsing of Ruby (Prism), the LSP transport, file-system watching, the WASM host's runtime, the RBS parser,
  the collection of facts from syntax trees, performance, memory usage.

## How a component is done

1. `Model/X`: the functions of the code, one definition per function, in the order of the code.  A panic (`expect`, `assert!`,
   index out of bounds) is an explicit result (`none`, `.panic`), never an unmodelled case.  Loops and recursions whose
   termination is not structural carry fuel, and running out of fuel is shown impossible.
2. `Spec/X`: what the answer should be, stated over histories, sets of facts, texts or graphs rather than over the data structures.
3. State machines: `Step`/`run` over lists of operations; an invariant is proved for every reachable state, then the properties are
   derived from it.  Refinement of a store: `Faithful s log` relates the indexes to the plain list of current facts.
4. Each theorem is tried against wrong programs (`seeded/LOG.jsonl`): one edit of a model definition that makes the claim false
   must make a theorem fail.  When a mutation survived, a theorem was tightened or the specification made independent.

## What is modelled

Paths: `core/`, `engine/`, `indexer/`, `inference/` are below `/repo/crates/ruby-analysis/src`, the others below `/repo`.

| Model | Code | Properties | Left out |
|---|---|---|---|
| Scheduler | `src/indexing_scheduler.rs` (all non-test code) | C01–C03 | `u64` overflow |
| Governor | `src/indexing_resources.rs`: policy, queue, accounting, navigation reservations, leases | C04–C06 | Rayon pools and `spawn_blocking` that run admitted work |
| SingleFlight | `src/single_flight.rs`: all three caches | C07–C09 | wall-clock statistics; the runtime runs every spawned task |
| NavDemand, NavKey | `src/navigation_demand.rs`, key normalization also in `src/query/definition.rs` | C10, C11, C41 | – |
| Status | `src/indexing_status.rs` | C12, C13 | project root, assertion on blank failure texts |
| Workspace | `src/server.rs` L355-366 | C42 | rest of the server |
| Arena, SymbolStore | `core/symbol_store.rs` | C14, C19 | heap estimates, id overflow |
| MethodStore | `core/method_store.rs` | C15 | fields that are neither indexed nor sorted by are one value |
| GraphStore | `core/graph_store.rs` | C16, C17 | `all_nodes`, counts |
| ReferenceStore | `core/reference_store.rs` | C18 | readers that iterate a whole hash map |
| TypeStore | `core/type_store.rs` | C20 | interning is the identity |
| Types | `core/ruby_type.rs`, `core/shape_type.rs`: union, subtraction, widening, shapes | C21–C23 | display |
| Subtype | `core/ruby_type.rs` L297-341, `core/shape_type.rs` L346-439 | C43 | – |
| Owners | `core/ruby_namespace.rs` | C24 | – |
| Envelope, Bytes | `src/persistent_cache.rs`: file formats | C25, C26 | error texts |
| CacheFs | `src/persistent_cache.rs`: publication and lookup on a crashing file system | C27 | durability of new shard directories, Windows |
| CacheLocks | `src/persistent_cache.rs`: lock protocol between processes | C44 | the 180 s limit is a nondeterministic abort |
| Dependency | `src/dependency_product.rs` | C28, C45 | postcard, conversion of snapshots |
| Positions, Utf8 | `indexer/source_document.rs`, `engine/state.rs` L161-244 | C29, C30 | – |
| Erb | `indexer/erb.rs` | C31 | – |
| Tarjan, Solver | `inference/method/recursive.rs` | C32 | telemetry, resolution of constants in equations |
| Mro | `engine/resolution.rs`: lookup chains | C33 | caches (see EngineGraph) |
| Constants | `engine/resolution.rs` L3152-3188 | C34 | ancestors of lexical scopes |
| EngineGraph | `engine/state.rs`: retry of unresolved links, fallback caches | C35, C46 | other facts of a file |
| Sources | `engine/file_id_map.rs`, `engine/state.rs`: registry, snapshots, commits | C36 | facts are opaque |
| Jvm | `crates/jvm-metadata/src/descriptor.rs` | C37 | recursion depth |
| ClassFile | `crates/jvm-metadata/src/classfile.rs` | C58 | messages and positions of errors; the number of attributes is passed along as in the code; recursion depth is fuel (`c58_fuel`: no restriction) |
| Archive | `crates/jvm-metadata/src/archive.rs` | C59 | the ZIP reader (crate `zip`: any function from bytes to entries), `str::from_utf8` (any function that inverts UTF-8) and the set of white space are parameters; the fingerprint and which error is reported are left out |
| YardTypes | `crates/ruby-analysis/src/indexer/yard/parser.rs` L572-624, `yard/converter.rs`, `core/ruby_namespace.rs` L50-70 | C60 | the Unicode tables of identifiers are a parameter with their ASCII part given; resolving the names in the engine |
| YardDoc | `crates/ruby-analysis/src/indexer/yard/parser.rs` L33-560 | C61 | `\w` is a parameter with its ASCII part given; the regexes are written as functions; how the documentation is stored and shown |
| MethodReference | `crates/ruby-analysis/src/engine/resolution.rs` L15-37, L1028-1343, L2080-2119, L2381-2415, L2493-2525, L2574-2616, L3074-3087, `core/method_store.rs` L539-613 | C62 | chains, unresolved dependencies and the metaclass are parameters (modelled in Mro); names are not interned; the name of a fact is its owner and name; the recursion has fuel |
| Snapshot | `crates/ruby-analysis/src/engine/external_facts_template.rs` L31-2031, `core/callable_body.rs`, `core/method_store.rs` L71-332, `core/fully_qualified_name.rs` L269-279 | C63 | the encoding of a snapshot as bytes is not modelled (serde); Unicode classes are parameters; references, diagnostics, contexts and evidence are lists whose elements are not looked at; interned names are texts |
| HigherOrder | `crates/ruby-analysis/src/inference/higher_order.rs` L18-330, L378-435, L521-800, `core/callable_signature.rs`, `core/ruby_type.rs` L337-340 | C64 | the substitution is a function; reading signatures from RBS (L332-376, L437-519), `&:name` and known procs (L131-176) are not modelled; that a block is typed once is seen from the caller (the flow tracker), which is not modelled here |
| ShapeReads | `crates/ruby-analysis/src/inference/type/shape.rs` L11-125, L178-347 | C65 | `missing_is_nil` (always true) is left out; `each_return`, `generic_hash_projection` and the tables of method names (L126-177) are not modelled |
| CallableBody | `crates/ruby-analysis/src/core/callable_body.rs`, `inference/callable_body.rs` | C66 | resolvers are functions that also get the number of the call; heap estimates, `ConstantCallableBodyFact` and the callers are not modelled |
| Lowering | `crates/ruby-analysis/src/indexer/callable_body.rs` L32-513, `inference/type/literal.rs` L438-446 | C67 | nodes that are refused are `other`; maps are lists; which names `RubyMethod::new` accepts is a parameter; `is_static_callable_literal` and the types of literals are not modelled; reuses ControlFlow (C48) |
| RbsTypes | `crates/ruby-analysis/src/inference/rbs.rs` L580-834, `crates/rbs-parser/src/loader.rs` L176-282, `types.rs` L243-246 | C68 | a path is one text; the keys of the index are triples; maps are functions; proc types have no parts; the parser of RBS is not modelled; reuses Types and `RubyConstant::new` of YardTypes |
| MethodReturn | `crates/ruby-analysis/src/inference/method/return_type.rs` L75-149, L185-219, L297-345, `inference/type/shape.rs` L120-165, `engine/lookup.rs` L305-337, `core/type_inference_outcome.rs` L598-624, `core/ruby_type.rs` L144-234 | C69 | what the project says about a method and which names `RubyMethod::new` accepts are parameters; a path is one text; `rbs_method_return_type` of a union, which is not reached, is left out; reuses RbsTypes, ShapeReads, Subtype |
| RbsAncestors | `crates/ruby-analysis/src/inference/rbs.rs` L43-70, L257-458, L836-1255 | C70 | the declarations are a list of which the last one of a name counts; the recursion has a bound that is shown to suffice; sets and maps are lists; attributes and visibilities are not looked at, as in the code; reuses RbsTypes, RbsTemplates and HigherOrder |
| RbsTemplates | `crates/ruby-analysis/src/inference/higher_order.rs` L340-378, L437-519; `inference/rbs.rs` L294-305, L459-496 | C71 | the set of type parameters is a list; whether a block is required, which is not used, is left out; reuses RbsTypes, HigherOrder and RbsAncestors |
| CacheLimits | `src/persistent_cache.rs` L26-33, L300-329, L339-431, L449-479, L541-634, L691-777, L1163-1205 | C72 | paths are numbers; one step is one critical section (why this is enough is said in the module); reading directories does not fail; counters for statistics |
| Edits | `src/capabilities/formatting.rs` L57-382, `src/capabilities/code_actions.rs` L67-73, `src/linter.rs` L363-443 | C73 | what external tools answer is arbitrary; Prism's tree is arbitrary; classes of characters are parameters; JSON is left out |
| DocSync | `src/capabilities/indexing.rs` L145-293, L374-607, L658-838, `src/indexer/file_processor.rs` L337-606, `src/server.rs` L555-564 | C74 | one document of a workspace; a text is a number and facts are the text they come from; background indexing is left out; the scheduler is arbitrary |
| ProjectFiles | `src/utils/file_ops.rs` L40-196, L224-267, `src/indexer/indexer_project.rs` L185-541, L1423-1475, L1551-1565, L1603-1705, `src/indexer/coordinator.rs` L161-190, L1715-1800, L1930-2060 | C75 | collecting a batch is one step; facts are left out; globs are arbitrary; Java classes that files ask for are a flag |
| Outline | `crates/ruby-analysis/src/indexer/document_symbols.rs` L11-362, `crates/ruby-analysis/src/indexer/scope_tracker.rs` L264-311, L405-423 (frames only), `src/capabilities/document_symbols.rs` L36-43, L123-164 | C76 | the syntax tree is a forest of the nodes the visitor looks at, in the order of its visits; offsets stand for positions; symbols of extensions are left out |
| SymbolSearch | `crates/ruby-analysis/src/engine/workspace_symbols.rs` L6-261, `src/query/workspace_symbols.rs` L18-62, `src/capabilities/workspace_symbols.rs` L18-62 | C77 | tables of upper and lower case and the fuzzy score before clamping are parameters; relevances in millionths instead of floating point; the facts of an engine are a list in the order in which it enumerates them |
| NamespaceTree | `crates/ruby-analysis/src/engine/namespace_tree.rs` L30-92 (hash key, project tree), L183-596, L889-926, `src/capabilities/namespace_tree.rs` L46-66 | C78 | namespaces are lists of names instead of joined texts; the iteration order of the map of nodes is a parameter; proven superclasses are given; edges of singleton classes and the flattened list of external namespaces are left out |
| Lens | `crates/ruby-analysis/src/indexer/code_lens.rs`, `crates/ruby-analysis/src/engine/lookup.rs` L137-207, L349-357, `src/query/code_lens.rs`, `src/capabilities/code_lens.rs` L13-92, `src/capabilities/folding_range.rs` | C79 | the parts of a name are a list instead of a text joined with `::`; the validity of a constant, the places of ranges and the positions of offsets are parameters; the lenses of extensions are given; folding sees the nodes with their offsets |
| SignatureHelp | `crates/ruby-analysis/src/indexer/analyzer.rs` L163-168, L413-541, `src/query/signature_help.rs` L134-380 | C80 | offsets count code points; the resolution of receiver and method (L32-133) and documentation texts are given or left out; parameters of facts and of RBS have one type |
| RequirePaths | `src/indexer/require_paths.rs` L69-239, L290-404 | C81 | texts are code points; a path is its components and a separator at the end; file system and files of the engine are functions on components; symbolic links, letter case of the file system and the lookup of dependency roots are left out |
| Hierarchy | `crates/ruby-analysis/src/engine/hierarchy.rs` L14-221, L262-387, `core/fully_qualified_name.rs` L378-407, `core/ruby_method.rs` L32-90, `core/ruby_namespace.rs` L47-66, L139-147 | C82 | Unicode classes are given with the facts that `#`, `:`, `?`, `!`, `=` are not in those where it matters (in the structure `Unicode`, with an instance for ASCII); ids are names; the stores are the lists that are read from them; conversion to positions is left out (C01) |
| JavaSource | `crates/jvm-metadata/src/java_source.rs` L73-491 | C83 | the tree of tree-sitter is the input, as a forest of nodes with kind, field, ranges, rows and text; the parameters of a descriptor are given as `parse_method_descriptor` reads them (C37); a class without name or body, a panic in the code, is `none` |
| JrubySignatures | `crates/jruby-support/src/names.rs`, `signatures.rs` | C84 | descriptors are given as read (C37); lines are structured values with a text; that a line of text is read back as its structured value by Ruby is not modelled; the tables of Unicode are a parameter |
| Runtimes | `crates/jruby-support/src/version.rs`, `src/runtime/catalog.rs` 179-280, 614-755 | C85 | white space is a parameter with the facts used; executables are numbers in the order of their paths; labels, homes of Java, running the executables and errors of reading files are left out |
| CheckReport | `src/check.rs` 27-145, 304-704 | C86 | texts are lists of bytes; paths are lists of components; what the parser and the engine give for a file are parts of the file; positions are given as lines and columns; rendering, telemetry, indexing and errors of reading files are left out |
| JavaCatalog | `src/runtime/jruby/java_catalog.rs` 118-252, 307-348, 387-500 | C87 | a class is its name and a number; maps are lists of entries in order of insertion; SHA-256 is a function that is a parameter (without collisions where said); the encoding by postcard, reading files, estimates of memory and the memory cache (C29) are left out |
| Telemetry | `crates/ruby-analysis/src/core/type_inference_outcome.rs` 237-262, 330-585; `engine/state.rs` 2278-2422, 2424-2530 (only what it changes), 2557-2694 | C88 | counts are functions of the name of the field; the map of reasons is a function; overflow is checked at the end of a step; methods are numbers; what the solver finds is a parameter (its work counts no returns); that the collector counts the methods of a file once is a hypothesis; references that are resolved later and their outcomes are left out |
| RubyVersions | `src/indexer/version/ruby_version.rs` 17-22, 44-175, 198-220; `src/indexer/version/version_detector.rs` 48-71, 119-268; `src/config.rs` 277-290; `src/indexer/coordinator.rs` 1526-1552, 3037-3052 | C89 | texts are lists of scalar values, white space is a parameter; a missing file and a failing program say nothing; `lines()` is a split at line feeds; the order of versions, `get_available_versions` and `version_managers.rs`, which have no callers, are left out |
| RuntimeConfig | `src/config/runtime.rs` 50-60, 84-128, 131-191, 208-213, 231-260, 269-283 | C90 | texts are lists of scalar values, white space is a parameter; paths are those of Unix; the mode, which has one value, and where a runtime was found are left out; errors do not carry texts; reading the settings from JSON is left out |
| ProjectRoots | `src/indexer/project_roots.rs` 6-129 | C91 | the file system below the workspace is a tree with distinct names; what is not a directory itself, such as a link, is not entered; `fs::canonicalize` and `is_dir` are parameters; names are texts ordered by scalar value, which is the order of their UTF-8 bytes; errors of reading are left out |
| Implementors | `engine/hierarchy.rs` L389-459, `module_includers` | C38 | – |
| Selection | `indexer/selection_ranges.rs` | C39 | the visit of the tree (any list of ranges) |
| VarScopes | `indexer/variable_scopes.rs` | C40 | flow read types (L500-575), `record_read`/`record_write` |
| Rename | `indexer/rename.rs` | C47 | Prism's tree is an arbitrary tree |
| ControlFlow | `inference/control_flow.rs`, `src/capabilities/diagnostics.rs` L236-283 | C48 | what Ruby does is a relation that ignores values; see `Spec/ControlFlow` |
| Arity | `indexer/analysis_indexer.rs` L2044-2138, `fact_collector/call_node/mod.rs` L1666-1722, `engine/diagnostic_helpers.rs` L74-148, `engine/diagnostics.rs` L1653-1822 | C49 | names are numbers, messages; which method is meant |
| Suggest | `engine/diagnostic_helpers.rs` L66-72, L150-197, `engine/diagnostics.rs` L1990-2019 | C50 | strings are lists of characters |
| SemanticTokens | `indexer/semantic_tokens.rs` L12-248, L434-594, `src/capabilities/semantic_tokens.rs` L16-77, L91-133 | C51 | Prism's nodes without own handling are one constructor with its children in visiting order; the table of macro-like method names is a parameter; `u32` subtraction panics or wraps around |
| FlowTypes | `inference/type_tracker/mod.rs` (see the line numbers in `Model/FlowTypes`), `type_tracker/narrow.rs` | C52 | shapes and their aliases, blocks, recursion of a method, pattern matching; what is known about methods and constants is a parameter; the specification is an interpreter (`Spec/FlowTypes`) |
| FlowShapes | `inference/type_tracker/mod.rs` L83-560 `FlowEnvironment`, and where it is used (see the line numbers in `Model/FlowShapes`) | C53, C54, C55 | constant dependencies, callables, statistics, splats in literals, `merge`/`merge!`, paths of more than one key; loops, rescue and blocks; sets of identities are finite sets, maps are functions |
| Visibility | `indexer/scope_tracker.rs`, `indexer/fact_collector/{mod,def_node,class_node,module_node,singleton_class_node}.rs`, `call_node/mod.rs` (visibility calls) | C56 | other calls (attributes, aliases, `define_method`, `private_class_method`), blocks and execution contexts of DSLs, statements between definitions; names are numbers |
| MethodLookup | `engine/resolution.rs` L732-757, L796-805, L905-1032, L2791-3150; `engine/state.rs` L3148-3231, L3873-3894 | C57 | ancestor chains, includers, targets of execution contexts and existence of namespaces are parameters (chains: `Mro`); references without a receiver type (`resolve_method_reference`); aliases |

## What was found

Where the code does not do what the property says, the theorem with the counterexample is named.

* **C05, C06** governor: one background request can be bypassed any number of times (`c05_unbounded_bypass`); an admission frees
  no waiter, so a request that fits can stay asleep (`c06_not_work_conserving`).
* **C12, C42** status: a transition to `Failed` leaves no reason, progress can go back through a call without counters; two
  overlapping `begin_indexing_run` calls can fail an assertion; cancelling can hit the status of a newer run.
* **C10, C41** navigation: `complete_keys` after `complete_stage` panics (`c10_example_panic`); a key with `İ` (U+0130) fails the
  assertion of `request` (`c41_dotted_i_panics`); the empty key is accepted by one operation and rejected by another.
* **C18** `facts_in_file` before `sort_all` repeats facts (`c18_unsorted_repeats`).
* **C20** ambiguous candidates are deduplicated only when adjacent (`c20_same_text_repeats`).
* **C21, C22, C43** types: unions flatten one level only; widening a valid shape can panic (`c22_empty_argument_panics`, reachable
  from YARD's `Hash{String => }`); exact shapes with optional fields and rest key types make subtyping unsound
  (`c43_exact_optional_unsound`, `c43_rest_key_unsound`).
* **C28** logical paths called normalized may contain `//` and `/./` (`c28_not_normalized`).
* **C30** a position at the end of a text without a final newline is reported on a line that does not exist
  (`c30_false_at_unterminated_end`).
* **C32** a cycle of eight or more methods can be given up although it has a solution (`c32_ring`); a proven base with an unknown
  union member makes the solver panic (`c32_unknown_member_panics`).
* **C35, C46** a resolved inheritance link is never reconsidered (`c35_nearer_definition`, `c35_removed_definition`); resolution
  does not clear the cached fallback chains (`c46_stale`).
* **C38** subclasses of a class that is mixed in are not searched (`c38_mixed_in_class_missed`).
* **C40, C47** references of a variable include shadowed outer ones (`c40_shadowed_outer_reported`) and miss outer ones after an
  assignment inside a block (`c40_block_assignment_missed`); renaming misses keyword parameters and outer variables in a
  superclass expression (`c47_keyword_missed`, `c47_superclass_missed`).
* **C48** `loop { e.next }` is reported as never ending although `StopIteration` ends it (`c48_stop_iteration`); so are calls of the
  program's own `abort`, `fail`, … (`c48_own_method`); `next if c; return` is said to leave the method (`c48_earlier_exit`);
  `loop { return 1 }` is said to raise (`c48_loop_return`), which drops the type of that branch in `callable_body.rs`; a `return` in
  a nested block is not seen (`c48_nested_return`).
* **C49** a destructuring parameter `(a, b)` is not counted, so right calls are reported (`c49_destructuring`); a required keyword
  passed under a computed key is reported as missing (`c49_computed_key`); `f(k: 2)` for `def f(a, k: 1)` is reported although Ruby 2
  accepts it (`c49_ruby2_keywords`).
* **C50** the length filter of method suggestions compares bytes with a tolerance in characters (`c50_wide_character_missed`).
* **C51** semantic tokens: tokens are reported out of order for `!x`, `-x` and `not x`, for `x while y`, for named groups of a
  regular expression on the left of `=~`, and for a heredoc with interpolated code followed by another argument
  (`c51_negation_fails`, `c51_while_modifier_fails`, `c51_named_capture_fails`, `c51_heredoc_fails`).  The request then panics in a
  debug build, and in a release build the difference wraps around and the positions of that token and of those after it are wrong.
* **C52** local variables: the body of a loop is tracked a fixed number of times, so an exchange of two variables ends where it
  started (`c52_exchange_in_loop_fails`), its condition only once (`c52_loop_condition_fails`), reads in it show the last pass
  (`c52_read_in_loop_fails`), paths of `break` are lost (`c52_break_fails`), its value is said to be that of the body
  (`c52_value_of_loop_fails`); a parameter without a type counts as `nil` (`c52_untyped_parameter_fails`); `x ||= 1` and assignments
  in arguments are not seen (`c52_operator_assignment_fails`, `c52_assignment_in_argument_fails`); a test is applied to a variable
  assigned after it (`c52_narrowing_after_assignment_fails`) and hides values from `rescue` (`c52_narrowing_before_rescue_fails`);
  a failed `instance_of?` removes instances of subclasses (`c52_instance_of_fails`); reads in `ensure` ignore exceptions
  (`c52_read_in_ensure_fails`); an `Object` is taken to be truthy (`c52_truthiness_of_object_fails`).
* **C53** hashes in local variables: `xs = [{a: 1}]` and a condition `xs.nil?` or `xs.is_a?(String)` with an assignment of a hash
  under it makes the analysis panic (`array_element_alternatives` expects an array), and so does an array literal with a hash of
  more than 32 keys in it (the type is unknown, but there are aliases of its elements, and L1373 asserts that it is an array).
* **C54** aliases of hashes: `x = y or z; x[:b] = 1` records the new key for both hashes although only one has it
  (`c54_write_to_either_fails`); if one of them was given up, the write is recorded for the other hash but not for its names
  (`c54_write_stops_fails`, `c54_agreement_fails`); a hash in a variable that may also be nil (`x = c ? {a: 1} : nil`) has no identity, so a
  write is not seen (`c54_write_to_mixed_fails`) and the next branch that assigns the variable drops it (`c54_join_of_mixed_fails`);
  `if x.key?(:a)` removes hashes from other variables too (`c54_guard_of_another_fails`), and when `x` is contained in another hash, a write
  under such a condition is not seen even by `x` (`c54_write_under_guard_fails`); in `y = {k: x, m: foo}` with `foo` of unknown type, `x`
  does not escape when `y` does (`c54_escape_in_generic_fails`).
* **C55** against executions: `Spec/FlowShapesHeap` says what code does to a heap of hashes that are shared with code outside. Hashes hold no
  hashes there, a call that the analysis types as a shape returns a new hash (a memoized one would break the claim: two calls give two
  identities), and there are no loops, blocks or rescue; a mutation inside a block is forgotten by the code, and a rescue clause starts from
  the shapes before the body (`c55_write_to_either_fails` is the failing run of the first finding of C54).
* **C56** `Spec/Visibility` says what running definitions and visibility calls does, following vm_method.c. Recorded otherwise than
  Ruby: `private def m` (stays public), `def self.m` after `private` (shown private), `initialize` after `private` (makes `new` private),
  `def` at the top level (shown public), `module_function` (instance copy public, not ended by `public`), `class ::A` in a module
  (`M::A`). Also seen: `def A::B.m` is recorded on the current namespace; `private *list`, `private [:a]` and `private_class_method`
  are not handled.
* **C57** a private method in a subclass does not hide the public one above: lookup skips facts that may not be called and goes on
  along the chain, where Ruby stops at the first entry. A redefinition after `private :m` stays private, an idle `public :m` takes effect
  later, and a rejected call is not sent to `method_missing`. `resolve_method_reference_with_chain_cache` follows targets of execution
  contexts without a guard against cycles (not modelled).
* **C58** `Spec/ClassFile` is the grammar of JVMS chapter 4 as far as the parser reads it. Not as it should be: the depth limit does not
  count arrays inside of annotation values, so an attribute of 3n bytes needs n nested calls (8 MiB are allowed: stack overflow);
  a second `LineNumberTable` or `LocalVariableTable` in the same code rejects the class (JVMS 4.7.12, 4.7.13 allow several); `record A()`
  is of kind class. Also seen: the last loop over the parameters (L599-604) never runs, and the limit of 65535 attributes is for the
  whole class.
* **C59** `Spec/Archive` is the end of a ZIP archive, the rules for names and the choice of the JAR specification. Not as there: a release
  directory is whatever `str::parse::<u16>` reads (`009`, `+9`), and of equal ones the first by name wins, so `+9` hides `9`; every line
  of the manifest counts, not only those of the main section; a class directly in `META-INF/versions/` or below `META-INF/versions/8/`
  rejects the JAR even if it is for one release; a class that cannot be read (see C58) or is not where its name says rejects the whole JAR;
  JARs with a script before them are rejected (offsets are from the start of the archive); the last thing that looks like an end record
  wins, even in a comment.
* **C60** `Spec/YardTypes` is YARD's grammar of types, what a type means, and the values it describes. The three loops over types count
  brackets differently and all take the `>` of `=>` for a closing bracket somewhere: a hash with braces in angle brackets with a comma
  after it tears the tag apart. Mostly the pieces are not constants and nothing is known, but `Hash<Array<Hash{A=>B},C,D>,Array<E>>` becomes
  `Hash<?, C>` or `Array<?>`, which is wrong. `@return [void]` is stored as returning nil. The words are recognised in any case, so classes
  called `Void`, `Nil`, `Bool` or `True` are not found.
* **C61** `Spec/YardDoc` gives a text by its lines, says what a comment line contains, and describes the tags by their parts. The regexes of the
  tags are searched anywhere in a line and tried in a fixed order, so a tag that is mentioned in the description of another one wins over
  it, or marks the method deprecated. What is said of a block alone is dropped, as the check for content does not look at it. The text
  before `def` on its line ends the search, so `private def` has no documentation. Blank lines do not end it, so the comment at the top
  of a file becomes a description. Columns are bytes throughout, while the editor gives and takes UTF-16.
* **C62** `Spec/MethodReference` gives the answers as a relation without caches, loops, sorting and fuel. The answer of a metaclass is cached
  without the receiver it was computed for; this is right because a receiver with a metaclass is in its own chain (`c62_receiver_in_chain`,
  from the model of C33), so that its own facts have been excluded before. Extensions may connect a context with itself
  (`src/extensions/mod.rs` L3448-3463 does not look for cycles): then the recursion over targets does not end and overflows the stack.
  Through a module the earliest definition is taken, though a class that defines the method twice is ambiguous. The diagnostics and the
  references treat a method of a reopened class as ambiguous, while going to its definition finds both places.
* **C63** `Spec/Snapshot` says what well made facts are, what the limits are and what may be in a template, without the functions of the
  code. The recursion limit for types (64) exists only when restoring, so a file with a deeper type is written to the cache and rejected on
  every start. `declaration_facts_have_generated_owner` looks neither into the signatures of methods nor into the bodies of callables.
  `MethodParamFact::new` asserts a non-empty name, so a damaged cache file with one ends the load with a panic.
* **C64** `Spec/HigherOrder` gives templates a meaning in every world of values of `Spec/Subtype` and says when a method keeps its signature
  (for every assignment of sets of values to the type variables). A block is typed once, with the types known before its result: with a
  signature like `inject`'s, in which the result is the next input, the type found can be wrong. The state that a block leaves in a hash it
  was given replaces the state before, as if the block ran at least once. Arguments are matched with parameters by position only, which is
  wrong for required parameters behind optional or rest parameters. Comparison with a concrete type accepts subtypes in both directions.
  Members of a union parameter that are arrays, hashes or unions are never matched.
* **C65** `Spec/ShapeReads` says what reading a hash can give in every world of values. The theorems need plain rest keys: whether a rest
  type covers a literal key is decided with a subtype test that knows nothing of class hierarchies, and a negative answer is taken as
  proof that the key is absent. With `{ **Object => Integer }`, `h[:a]` is typed nil and `h.key?(:a)` false.
* **C66** `Spec/CallableBody` gives the value of a summarised body as a relation over worlds with method calls. A proc that is called with a
  single array and has several parameters takes the array apart; the evaluation binds the whole array to the first parameter.
* **C67** `Spec/Lowering` runs literals over variables and values: every condition may hold or not, objects do not change, and what calls
  give is a relation. The theorem needs literals that are neat (the hypothesis `NeatLiteral`); for each part of it there is a counterexample:
  early `return` and `next` are forgotten, assignments in conditions, interpolations and defaults are misread, `&.` is read as `.`, a
  block-local variable as a captured one, and a branch that ends with `raise` is dropped with the `return`s in it. That objects do not
  change is a simplification of the specification: a local that is lowered to a call is evaluated where it is read.
* **C68** `Spec/RbsTypes` says which values an RBS type has, for a reading of the names in it. Tuples are only said to contain values of
  their types. The theorems need types that are `Closed` or `Bounded`, and readings from the root. Counterexamples: several signatures,
  tuples with type parameters, type parameters of methods, unbound type parameters, arrays with several element types, `void`, reopened
  classes, relative names.
* **C69** `Spec/MethodReturn` has a relation `Calls` and says when the project (`QueryTrue`), RBS (`Obeys`), `new` and the hash methods are
  right about it. `Obeys` allows any overload; the theorem needs methods whose overloads give one type (`Clear`), arrays with one type of
  elements, and classes that RBS knows by path (`Direct`). Counterexamples: the last name of a path, a `new` of a class's own, arrays and
  hashes the project has changed, several element types. In the code a method of the project without a proven type gives `None`, and so is
  treated like one that does not exist: RBS is then asked about it.
* **C70** `Spec/RbsAncestors` defines what is inherited (`Inherits`, `Reach`), the order of the ancestors (`Lin`, with the included modules in
  declared order, or in Ruby's), and when bindings mean what they should (`Core`, `Scoped`, `Inherited`, `Plain`). Counterexamples: the order of
  two included modules, `prepend`, aliases, `Enumerable[[ K, V ]]`, class objects, nested names, undeclared modules, `extend`, the kind of the
  method an alias is for.
* **C71** `Spec/RbsTemplates` says when a method keeps an overload in terms of the written types (`Keeps`, with the meaning of RBS types of
  `Spec/RbsTypes`), and when the method of a declaration works for a receiver (`Works`). The end-to-end theorem `c71_sound` joins C70 (where
  the method and its bindings come from), the templates, and C64 (how a call is matched with a signature); `c71_example` instantiates all
  its hypotheses in a small world. Counterexamples: `void`, `bot`, `::Elem`, records, one unsupported overload, `Hash#map`.
* **C72** the disk cache: two processes exceed the limits together (`c72_two_processes_fails`; `c72_bound` says by how much at most); a
  file that vanishes during a cleanup still counts, so too much is removed (`c72_vanished_fails`); `clear` sets the accounting after
  unlocking (`c72_clear_fails`); `invalidate_compiled_wasm` sets the accounting back while publications are under way, which are then
  recorded without cleanup, again and again (`c72_rejection_fails`, any number of files with a limit of 2); a cleanup gives up after 180
  seconds when a reservation is held that long (`c72_timeout_fails`); temporary files of crashes are never removed (`c72_temporaries`);
  a clock that goes back evicts the newest product (`c72_clock_fails`).
* **C73** edits: with a carriage return outside of `\r\n` a formatter's edit leaves the end of the old text behind the new one
  (`c73_format_fails`); RuboCop reports columns in characters but they are read as bytes (`c73_characters_fails`), one that falls inside
  of a character loses the whole report (`c73_one_lost_fails`), as does an offence in an empty file (`c73_empty_fails`); typing Enter
  anywhere in a text that has a complete `if` adds `end` (`c73_everywhere_fails`); needless and missing `end`s of the look at the line
  (`c73_needless_fails`, `c73_missing_fails`).
* **C74** open documents: a handler of another document that processes this one again with the text it took earlier, without its lock,
  puts the old text under the new version (`c74_refresh_stale_fails`) or puts a closed document back (`c74_refresh_closed_fails`,
  `c74_refresh_reopened_fails`); a change on disk read before the document was opened overwrites its facts (`c74_watch_stale_fails`);
  versions are not compared (`c74_order_fails`; tower-lsp starts handlers in order, so this needs another scheduler); closing keeps the
  facts of unsaved text (`c74_discard_fails`); a failed text counts as indexed when opened again (`c74_failed_fails`); saving does not
  resolve anything (`c74_save_resolves_fails`).
* **C75** files of a project: one unreadable file fails the whole project (`c75_unreadable_fails`); a line such as `require é'` makes the
  scan panic, as a byte offset is used to index characters (`c75_scan_panics_fails`); quotes in comments are read as the required name
  (`c75_comment_fails`), parentheses are not read (`c75_parentheses_fails`); a project's own `lib/log` is not indexed (`c75_log_fails`);
  links (`c75_link_fails`); files counted twice (`c75_overlap_fails`); gems with equal keys (`c75_twins_fails`).
* **C76** outline of a document: children are listed in the opposite order of the source, since the pass that attaches them goes
  backwards and appends (`c76_order_fails`); `private :a` and `private def a` make all methods after them private (`c76_named_fails`,
  `c76_private_def_fails`), and so does any call of a method of such a name, also with a receiver and in a body (`c76_receiver_fails`);
  constants and classes are marked private (`c76_constant_fails`); improper class names (`c76_invalid_fails`); attributes are missing
  (`c76_attribute_fails`).  Methods at the top level are shown as public although Ruby makes them private.
* **C77** search for symbols: only the capitals of a query count once there is one (`c77_camel_fails`: `Uxyz` finds `User`); the
  ranking by relevance is undone by the final sort by name (`c77_order_fails`); `A::B` does not find `A::B` (`c77_qualified_fails`);
  copies from several engines remain if a place has two kinds of symbols (`c77_once_fails`).  The matches at the beginning of words
  and of substrings are dead code (`c77_dead`).
* **C78** tree of namespaces: the order of namespaces of the same name at the top depends on the iteration order of a hash map
  (`c78_ties_fails`); the key of the cache contains byte offsets but no lines, so a tree with wrong lines is returned after an edit
  that changes line ends only (`c78_cache_fails`); a class that includes a module on two ways is listed twice (`c78_twice_fails`);
  the search for includers takes the kind of a namespace from the first fact of any file (`c78_kind_fails`).
* **C79** lenses and folding: `module A::B; module C` gets the lens of `B::C` and `module A; module ::B` that of `A::B`
  (`c79_nested_fails`, `c79_absolute_fails`); a class that is opened twice is counted as two classes (`c79_reopened_fails`); a class
  that includes a module which is itself extended with `M` is counted for `M` (`c79_extend_fails`); `class << self; include M` is in
  no lens (`c79_singleton_fails`); nothing inside a method folds (`c79_folds_fails`).
* **C80** signature help: the help of an inner call stays behind its closing parenthesis (`c80_closed_fails`) and an operator in an
  argument takes over (`c80_operator_fails`); required parameters behind optional ones or a rest are shown for the wrong arguments
  (`c80_post_fails`); a keyword for `**` and the next keyword after a comma show a positional parameter (`c80_anonymous_fails`,
  `c80_next_fails`); the first overload is always the active one (`c80_overload_fails`); a label that is also in the name of the
  method is highlighted there (`c80_highlight_fails`); see also `c80_comma_fails`, `c80_ambiguous_fails`.
* **C81** `require`: a file without extension (`c81_bare_fails`) and a file of the project root (`c81_root_fails`) shadow the file
  that Ruby loads; `./foo` is looked up in `lib` (`c81_dot_fails`), `foo/` leads to `foo.rb` (`c81_slash_fails`), `foo.RB.rb` is not
  tried (`c81_case_fails`), and the load path `./src` is ignored (`c81_load_path_fails`).
* **C82** hierarchies: the places of calls in a method that is defined in two files are shown in its first file (`c82_file_fails`);
  calls at the top level are missing (`c82_top_fails`); `A#x` and `A.x` are one entry (`c82_kind_fails`); a class that is reopened with
  its superclass is listed twice (`c82_reopened_fails`); texts of singleton classes and generated owners are not read back
  (`c82_singleton_fails`); the methods `!`, `~` and the backquote are not accepted as names (`c82_operator_fails`).
* **C83** Java source: a class inside a method is taken for the class of that name inside the class (`c83_local_fails`); a method that
  is alone by name and number of parameters is located whatever its types, so that two methods are at one place (`c83_alone_fails`);
  methods and fields of enums, constants of interfaces, methods with a written receiver, short constructors of records and overloads
  with a type variable are not located (`c83_enum_fails`, `c83_constant_fails`, `c83_receiver_fails`, `c83_compact_fails`,
  `c83_variable_fails`); the word `static` in an annotation makes a method static (`c83_annotation_fails`). The kinds of nodes for
  enums and interfaces are those of the grammar tree-sitter-java, which is not part of the repository.
* **C84** Ruby declarations of Java classes: the classes `foo.barBaz.C` and `fooBar.baz.C` have one Ruby name (`c84_collide_fails`); two
  parameters can get the name `arg1` (`c84_distinct_fails`); private constructors and static methods are written under `private` as
  `def self.`, which stays public (`c84_private_fails`); constructors are documented to return `nil` (`c84_constructor_fails`);
  `Map` is a module, but a class in the file of `Map$Entry` (`c84_outer_fails`); `Iterator#next` and `System.out` are missing
  (`c84_keyword_fails`, `c84_field_fails`); a private final field has a public writer (`c84_writer_fails`); class names in lower case,
  without package or with a dollar (`c84_constant_fails`, `c84_package_fails`, `c84_dollar_fails`); `@raise []` (`c84_raise_fails`).
* **C85** runtimes: `ruby 3.4.0preview1` is recognised as 3.4.0 and selected by the marker `3.4.0` (`c85_preview_fails`); a snapshot of JRuby
  is not recognised (`c85_snapshot_fails`); `jruby-9.04.5.0` and `jruby-9.4` do not select 9.4.5.0 (`c85_equal_fails`); a second line in
  `.ruby-version` makes it invalid, and an empty one hides `.tool-versions` (`c85_comment_fails`).
* **C86** the report of `check`: when a directory is checked, diagnostics of the engine are not restricted to the files that are checked
  (`c86_outside_fails`); errors of syntax in signature files are missing though the files are counted (`c86_signature_fails`); one expression
  can be shown with a type and as unknown (`c86_answers_fails`).
* **C87** the catalog of Java classes: which class a name stands for depends on the order of the class path (`c87_order_fails`), as intended.
* **C88** telemetry of inference: after solving, the first file counts the methods of all files and the others none, so `check` of one file
  reports counts of other files or none (`c88_file_fails`); the number of aliases stays when a file changes but its methods do not
  (`c88_aliases_fails`); types changed by solving constants are not counted again (`c88_constants_fails`).
* **C89** versions of Ruby: `ruby "~> 3.0"` in a Gemfile, which a comment names as supported, is not read, nor is `ruby "3.2", engine: ...`
  (`c89_requirement_fails`); the engine in a Gemfile is not used (`c89_engine_fails`); `rvm use jruby-9.4.5.0` in a .rvmrc file is taken for
  Ruby 9.4 (`c89_rvmrc_fails`); a newer engine has no version from a marker and one from its output (`c89_newer_fails`).
* **C90** settings for runtimes: two entries for one root are accepted when it is written in two ways, and the second is never used
  (`c90_roots_fails`); an accepted MRI of which a number is above 255 gives no version of Ruby, so nothing is selected (`c90_bytes_fails`); of
  TruffleRuby neither the family nor the Ruby has to fit the engine (`c90_truffle_fails`).
* Seen while reading, outside the claims: `clear()` of the persistent cache resets its accounting after unlocking; leftover
  temporary files are never evicted; a thread that holds a reservation and looks another product up while the accounting was reset
  waits for its own lock until the timeout; `RubyVersion`'s order is inconsistent with its equality.
