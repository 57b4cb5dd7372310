{"id": "C01", "title": "Indexing permits never exceed the limit or collide on a project", "statement": "For every scheduler limit and every interleaving of registering, waiting, cancelling, dropping, reprioritising and releasing, the number of permits held at once is at most the configured limit, no two held permits belong to the same project root, and none of the scheduler's own invariant assertions can fire.", "quantifier": "all limits, all numbers of requests and projects, all finite interleavings of API calls and task polls", "why_tests_cant": "A test exercises a handful of interleavings; the claim is about every schedule of an unbounded number of tasks.", "anchors": ["src/indexing_scheduler.rs: IndexingScheduler::register_cancellable, IndexingAdmission::wait, Drop for IndexingPermit, Drop for QueueRegistration, prioritize_active_project"]}
{"id": "C02", "title": "Indexing admission order is priority, then arrival, with one bypass of background work at most", "statement": "When a permit is granted, the request granted is the best among the queued requests whose project is not already running: lowest effective priority class, then earliest arrival; except that once a higher-priority request has been granted while a background request could have run, the very next grant made while a background request can run goes to the oldest such background request. Hence a runnable background request is never passed over by non-background work twice in a row.", "quantifier": "all reachable scheduler states and all continuations", "why_tests_cant": "Starvation freedom is a property of all infinite families of histories, not of any finite set of test scripts.", "anchors": ["src/indexing_scheduler.rs: best_admissible_entry_index, best_admissible_entry_index_with_fairness, MAX_PRIORITY_ADMISSIONS_WHILE_BACKGROUND_WAITS"]}
{"id": "C03", "title": "No lost wakeup in the indexing scheduler", "statement": "In every reachable state, if a slot is free and some queued request could run, the task waiting on the request that would win is awake or has a wakeup pending; it can never sleep forever while capacity is available. A request whose waiter is cancelled or dropped leaves no entry behind in the queue.", "quantifier": "all interleavings of state changes and of the two halves of a wait (registering for the wakeup, checking the state, going to sleep)", "why_tests_cant": "Lost wakeups need one specific interleaving between a check and a notification; tests almost never hit it.", "anchors": ["src/indexing_scheduler.rs: IndexingAdmission::wait (notified created before the lock), notify_waiters call sites"]}
{"id": "C04", "title": "Resource governor never over-commits CPU, memory, I/O or task slots", "statement": "For every policy and every history of acquires, cancellations, lease releases (normal, cancelled or panicking) the reserved CPU lanes, memory bytes, I/O lanes and task count equal the sums over the leases held, each is within the policy, recorded peaks are never below current use nor above the policy, and the governor's arithmetic assertions cannot fire.", "quantifier": "all policies, all request shapes that fit the policy, all finite histories", "why_tests_cant": "Needs an invariant over all histories; a leak or double release shows only after particular cancel/panic orders.", "anchors": ["src/indexing_resources.rs: acquire, reserve_resources, request_fits_available, Drop for ActiveResourceLease, Drop for QueuedTaskRegistration"]}
{"id": "C05", "title": "Governor fairness and navigation-first blocking", "statement": "Between two consecutive admissions of background work, at most one non-background admission happens at a moment when some other queued background request fits the free resources. While the active project's navigation is pending, no project-parallel task of another project is admitted.", "quantifier": "all reachable governor states, all policies and all continuations", "why_tests_cant": "The bypass bound and the blocking rule are claims about every future of every reachable state.", "anchors": ["src/indexing_resources.rs: best_admissible_entry_index, project_parallel_blocked_by_active_navigation, acquire"]}
{"id": "C06", "title": "Governor is work conserving", "statement": "If a queued request fits the free resources and would be chosen, its waiter is awake or has a wakeup pending, so free resources are never left idle until an unrelated event.", "quantifier": "all interleavings of enqueue, check, sleep, admission and release", "why_tests_cant": "Needs one specific interleaving of two waiters that no test drives.", "anchors": ["src/indexing_resources.rs: acquire (no notify after enqueue or admission), Drop for ActiveResourceLease"]}
{"id": "C07", "title": "Concurrent requests for one key share one computation and its result", "statement": "At any moment at most one producer for a given key of a single-flight cache is unfinished; every caller receives exactly the result produced by a producer started for its own key, at or before the end of its call; a caller that joins an unfinished computation receives that computation's result; no flight is completed twice.", "quantifier": "all numbers of callers and keys, all interleavings of lookups, producer completion, failure and eviction", "why_tests_cant": "Races between completion, failure cleanup and eviction are schedule dependent.", "anchors": ["src/single_flight.rs: SingleFlightCache::get_or_try_init, BoundedSingleFlightCache::get_or_try_init, BlockingBoundedSingleFlightCache, FlightState"]}
{"id": "C08", "title": "Bounded cache honours its limits and evicts oldest-first, never an in-flight entry", "statement": "Eviction never removes an unfinished computation, removes completed entries strictly in order of creation, stops as soon as the limits hold, and whenever no completion is still being processed the number and total weight of retained completed entries are within the configured limits (an ephemeral cache retains none).", "quantifier": "all limits, weights and interleavings", "why_tests_cant": "The limits must hold after every history, including histories with overlapping completions.", "anchors": ["src/single_flight.rs: evict_completed_to_limits, BoundedSingleFlightCache::new, ephemeral, completed_weight"]}
{"id": "C09", "title": "Failed computations are not retained and statistics balance", "statement": "Once the completion of a failed computation has been processed, no later lookup is answered with that failure: the next lookup starts a fresh producer. In every state lookups = hits + joined + misses for the lookups that passed the map lock, producers started = misses, and failures never exceed producers.", "quantifier": "all interleavings of lookups and completions", "why_tests_cant": "Error caching bugs depend on the order of completion and replacement of the entry for the key.", "anchors": ["src/single_flight.rs: get_or_try_init completers, statistics"]}
{"id": "C10", "title": "Outstanding navigation demand is bounded and each key is handed out once per request", "statement": "The number of navigation keys outstanding (requested or being worked on) never exceeds the configured maximum; a key is never simultaneously pending, in flight and processed; draining hands out every pending key exactly once and nothing else.", "quantifier": "all histories of request, drain, claim, complete and cancel calls over all keys and generations", "why_tests_cant": "Set disjointness and the bound must survive every order of calls.", "anchors": ["src/navigation_demand.rs: NavigationDemandCoordinator::request, drain, claim_if_requested, complete_keys, outcome_for"]}
{"id": "C11", "title": "A navigation request is never lost and its outcome is final", "statement": "A ticket whose request was accepted for the current generation either already has an outcome or its key is still outstanding in its stage; once an outcome is available the ticket always has one; operations carrying an old generation change nothing.", "quantifier": "all histories and all tickets issued during them", "why_tests_cant": "A forgotten key means an editor request that never resolves, which only shows under particular call orders.", "anchors": ["src/navigation_demand.rs: NavigationDemandTicket::wait, outcome_for, begin_generation, complete_stage, cancel_generation"]}
{"id": "C12", "title": "Indexing status only moves forward and old runs cannot change it", "statement": "Every accepted status change increases the sequence number; within one run the phase rank never decreases and nothing changes after a terminal phase; a call made on behalf of an older run is ignored.", "quantifier": "all histories of begin, transition, fail and cancel by any number of overlapping runs", "why_tests_cant": "Overlapping runs interleave arbitrarily; tests show a few orders.", "anchors": ["src/indexing_status.rs: begin_run, transition, fail, cancel, cancel_current, is_current_run"]}
{"id": "C13", "title": "At most the newest run is left uncancelled", "statement": "In every reachable state the cancellation token of every run but the newest is cancelled, and cancelling a named run never cancels a newer one.", "quantifier": "all histories of runs", "why_tests_cant": "Needs an invariant over histories with arbitrarily many restarts.", "anchors": ["src/indexing_status.rs: begin_run, cancel, cancel_current"]}
{"id": "C14", "title": "The symbol index always reflects exactly the latest facts of each file", "statement": "After any history of replacing, adding to and removing files, looking up a name or a file returns exactly the facts most recently supplied for the files still present, in the documented order, with no stale, lost or duplicated fact, and no internal panic is reachable. Updating one file never changes what is returned for another.", "quantifier": "all histories over all files, names and facts", "why_tests_cant": "Slot reuse and incremental ordering can go wrong only after particular edit histories.", "anchors": ["crates/ruby-analysis/src/core/symbol_store.rs: SymbolStore::add, replace_file, remove_file, facts_for, facts_in_file", "crates/ruby-analysis/src/core/file_owned_index.rs: place_appended_file_facts"]}
{"id": "C15", "title": "The method index reflects exactly the latest facts and composes availability deterministically", "statement": "After any history, method lookups by name, by owner and by owner and name return exactly the latest facts of each file; and the effective method for an owner and name is missing when any fact marks it absent, otherwise taken from the unavailable facts if there are any, unique only when all those facts agree and ambiguous otherwise.", "quantifier": "all histories over all files, owners and methods", "why_tests_cant": "Five indexes must agree after every history.", "anchors": ["crates/ruby-analysis/src/core/method_store.rs: MethodStore::add, replace_file, remove_file, effective_fact_matching_owner_name"]}
{"id": "C16", "title": "Superclass resolution depends only on the set of known edges", "statement": "The superclass reported for a class is the same for every order in which files were indexed: an explicit superclass always beats the implicit one, two different candidates of the winning kind are reported as ambiguous, and no edges at all as missing.", "quantifier": "all sets of superclass facts and all histories that lead to them", "why_tests_cant": "Order independence is a statement about all permutations of all inputs.", "anchors": ["crates/ruby-analysis/src/core/graph_store.rs: SemanticGraph::superclass_resolution, insert_edge, replace_file"]}
{"id": "C17", "title": "The inheritance graph and its unresolved-superclass ledger match the latest facts", "statement": "After any history of replacing, adding, removing and retrying edges, the edges reported from and to a name are exactly those of the latest facts of each file, the answer to 'has an unresolved explicit superclass' is true exactly when such a fact is present, and the ledger's internal assertions cannot fire.", "quantifier": "all histories of graph operations", "why_tests_cant": "A reference-count drift shows only after long specific histories.", "anchors": ["crates/ruby-analysis/src/core/graph_store.rs: add_edge, remove_file, replace_file, take_unresolved_edges, add_unresolved_edge, remove_unresolved_explicit_superclass_source"]}
{"id": "C18", "title": "Find-references returns exactly the current references", "statement": "After any history of adding, sorting, replacing and removing, the references of a target are exactly the latest ones of each file in file and position order, and the references of a file are each reported once.", "quantifier": "all histories over all files and targets", "why_tests_cant": "Per-file and per-target indexes must agree after every history.", "anchors": ["crates/ruby-analysis/src/core/reference_store.rs: ReferenceStore::add, sort_all, replace_file, remove_file, facts_for, facts_in_file"]}
{"id": "C19", "title": "Incremental placement of a file's facts equals a full re-sort", "statement": "Placing the facts of one freshly indexed file into an ordered index gives the same list as stably sorting the whole list by file and position, for every previously ordered index that no longer contains that file.", "quantifier": "all ordered indexes, all batches", "why_tests_cant": "An off-by-one in the rotation corrupts order only for some neighbourhoods of file ids.", "anchors": ["crates/ruby-analysis/src/core/file_owned_index.rs: place_appended_file_facts"]}
{"id": "C20", "title": "Type lookups answer from the latest facts only and report ambiguity honestly", "statement": "After any history, the type of a subject at an offset is computed from the latest facts of that file only: no fact at or before the offset gives no type, and when the facts at the latest starting position disagree the answer is ambiguous and lists every distinct candidate.", "quantifier": "all histories, subjects and offsets", "why_tests_cant": "The claim ranges over every edit history and every offset.", "anchors": ["crates/ruby-analysis/src/core/type_store.rs: TypeStore::replace_file, remove_file, type_at"]}
{"id": "C21", "title": "Type unions form a canonical join", "statement": "Building a union gives a result that does not depend on the order, repetition or one-level grouping of its members, never nests a union, is unknown exactly when a member is unknown, there are no members, or there are more than eight distinct structural hash shapes, and joining a union with one of its own members changes nothing.", "quantifier": "all finite lists of types of any size and nesting", "why_tests_cant": "Equational laws over all types cannot be exhausted by examples.", "anchors": ["crates/ruby-analysis/src/core/ruby_type.rs: RubyType::union, optional, union_from_proven"]}
{"id": "C22", "title": "Widening literals never fails and reaches a literal-free type", "statement": "Widening the literals of any type the analyser can hold terminates without a panic and yields a type without literals outside hash-shape keys; widening twice equals widening once.", "quantifier": "all types of any depth", "why_tests_cant": "A panic on one rare nested shape is not found by examples.", "anchors": ["crates/ruby-analysis/src/core/ruby_type.rs: RubyType::widen_literals", "crates/ruby-analysis/src/core/shape_type.rs: ShapeType::try_map_types, try_new"]}
{"id": "C23", "title": "Every hash shape is well formed", "statement": "Every shape that is successfully built has at most the maximum number of fields, sorted with no duplicate key, no unknown field or rest type, depth within the bound, and exact shapes carry no rest; looking up a key finds a field exactly when one was given for that key.", "quantifier": "all field lists, rest types and depths", "why_tests_cant": "Constructor validation must hold for every input list.", "anchors": ["crates/ruby-analysis/src/core/shape_type.rs: ShapeType::try_new, field, MAX_SHAPE_FIELDS, MAX_SHAPE_DEPTH"]}
{"id": "C24", "title": "Generated owner identities are unambiguous and cannot collide with Ruby constants", "statement": "Two generated owners are equal exactly when their three components are equal, decoding an encoded identity succeeds and returns the same identity, only canonical encodings are accepted, and no identity equals any constant name a Ruby program can contain.", "quantifier": "all component triples and all candidate strings", "why_tests_cant": "Injectivity over all strings, including ones that contain the delimiters and digits, is not testable exhaustively.", "anchors": ["crates/ruby-analysis/src/core/ruby_namespace.rs: GeneratedOwnerId::new, RubyConstant::new, from_canonical_generated_owner"]}
{"id": "C25", "title": "Cache envelopes round-trip and every truncated or extended file is rejected", "statement": "Decoding an encoded cache file returns exactly the stored payload; any proper prefix or extension of an encoded file, and any file whose header, lengths or digest do not match, is rejected rather than returned.", "quantifier": "all payloads, all prefixes and all suffixes", "why_tests_cant": "Torn writes can cut a file at any byte.", "anchors": ["src/persistent_cache.rs: encode_envelope, decode_envelope, ENVELOPE_HEADER_BYTES"]}
{"id": "C26", "title": "Compiled extension payloads are bound to their key", "statement": "Decoding an encoded compiled-module payload with the same engine and module identity returns the module bytes; with any different identity it is rejected; every truncation is rejected.", "quantifier": "all payloads and identities", "why_tests_cant": "The claim ranges over all pairs of identities.", "anchors": ["src/persistent_cache.rs: encode_compiled_wasm_payload, decode_compiled_wasm_payload"]}
{"id": "C27", "title": "Publishing a cached product is atomic under crashes", "statement": "If the process stops at any step of publishing, a later lookup under that identity sees either what was there before or the complete new product, never a partial one, and a leftover temporary file is never served.", "quantifier": "all prior contents and all crash points", "why_tests_cant": "Crash points cannot be enumerated by unit tests without fault injection.", "anchors": ["src/persistent_cache.rs: publish_inner, lookup_disk, product_kind_for_path"]}
{"id": "C28", "title": "Dependency identities are canonical and unambiguous", "statement": "The byte string hashed for a dependency manifest does not depend on the order in which sources are listed and determines every identity field and every source entry, so two different dependency inputs never hash the same byte string.", "quantifier": "all manifests", "why_tests_cant": "Injectivity of an encoding over all manifests is not testable.", "anchors": ["src/dependency_product.rs: DependencyProductManifest::new, hash_field, encode_hex"]}
{"id": "C29", "title": "Offsets and editor positions convert back and forth without loss", "statement": "For every text and every byte offset, converting the offset to a line and UTF-16 column and back returns the offset rounded down to a character boundary; converting any position to an offset gives a character boundary inside the text, on the requested line, and never past that line's newline.", "quantifier": "all texts (any Unicode), offsets and positions", "why_tests_cant": "Multi-byte, surrogate-pair and line-ending combinations are unbounded.", "anchors": ["crates/ruby-analysis/src/indexer/source_document.rs: SourceDocument::offset_to_line_character, line_character_to_offset, compute_line_offsets"]}
{"id": "C30", "title": "Reported positions lie on existing lines", "statement": "For every text and every offset, the line number reported equals the number of newlines before the offset, so the position exists in the editor's view of the text.", "quantifier": "all texts and offsets", "why_tests_cant": "The failing case is the end of a file without a trailing newline, which the unit tests miss.", "anchors": ["crates/ruby-analysis/src/indexer/source_document.rs: offset_to_line_character, compute_line_offsets", "crates/ruby-analysis/src/engine/state.rs: SourceLineIndex::new, byte_offset_to_line_character"]}
{"id": "C31", "title": "ERB masking preserves every offset and only exposes Ruby code", "statement": "For every template, the masked source has the same byte length and the same line breaks, contains the template's bytes verbatim inside the reported Ruby ranges and only blanks, line breaks or statement separators outside, the ranges are ordered and disjoint, and the masked bytes are valid UTF-8.", "quantifier": "all templates", "why_tests_cant": "Tag and delimiter overlaps over all byte strings cannot be enumerated.", "anchors": ["crates/ruby-analysis/src/indexer/erb.rs: mask_erb, find_bytes, EmbeddedRuby::is_ruby_offset"]}
{"id": "C32", "title": "Inferred method return types solve their equations", "statement": "Every method with an equation gets exactly one outcome; whenever an outcome is a proven type it is the union of the proven bases and of the outcomes of all methods it depends on (none of which is unknown), also across mutual recursion; the solver always terminates and never presents an unknown as proven.", "quantifier": "all finite systems of equations with any dependency graph", "why_tests_cant": "Dependency graphs of unbounded size with arbitrary cycles.", "anchors": ["crates/ruby-analysis/src/inference/method/recursive.rs: solve_method_return_equations_with_telemetry, evaluate_method, strongly_connected_components"]}
{"id": "C33", "title": "Method lookup chains are finite, duplicate free and complete", "statement": "For every inheritance graph, including cyclic ones, building the method lookup chain terminates, lists each ancestor once, lists exactly the namespaces reachable through the permitted prepend, include, hook-extend and superclass links, and starts with the prepended modules before the namespace itself.", "quantifier": "all finite graphs", "why_tests_cant": "Cycles and diamonds over arbitrary graphs.", "anchors": ["crates/ruby-analysis/src/engine/resolution.rs: build_mro, included_hook_extend_edges, edges_from"]}
{"id": "C34", "title": "Constant lookup finds the innermost lexical definition", "statement": "A relative constant path resolves to the definition under the longest enclosing namespace prefix for which one exists, an absolute path only to the top level, and to nothing exactly when no prefix defines it.", "quantifier": "all namespaces, contexts and sets of definitions", "why_tests_cant": "Ranges over every nesting depth and definition set.", "anchors": ["crates/ruby-analysis/src/engine/resolution.rs: resolve_constant_fqn", "crates/ruby-analysis/src/engine/state.rs: resolve_unresolved_graph_target"]}
{"id": "C35", "title": "Inheritance links do not depend on indexing history", "statement": "After indexing a set of files and resolving, the inheritance links are a function of the files' current facts: re-indexing or adding files in another order, with resolution in between, gives the same links.", "quantifier": "all histories of indexing and resolving with the same final contents", "why_tests_cant": "Needs comparing all histories; the failure needs a later, nearer definition.", "anchors": ["crates/ruby-analysis/src/engine/state.rs: retry_unresolved_graph_edges, resolve_unresolved_graph_target, replace_facts"]}
{"id": "C36", "title": "Stale background results are never committed", "statement": "Facts collected against a file snapshot are committed only if no different content was registered for that file since; ids of files are stable and distinct for distinct paths for the life of the engine.", "quantifier": "all interleavings of registrations, snapshots and commits", "why_tests_cant": "Race between editing and background indexing.", "anchors": ["crates/ruby-analysis/src/engine/state.rs: register_indexed_file, source_snapshot_for_path, replace_facts_if_source_snapshot, register_file_borrowed_if_snapshot", "crates/ruby-analysis/src/engine/file_id_map.rs: FileIdMap::get_or_insert"]}
{"id": "C37", "title": "JVM descriptors parse exactly the grammar", "statement": "A method or field descriptor string is accepted exactly when it is the printed form of some type or signature, and the parse result is that unique type or signature.", "quantifier": "all byte strings and all nested types", "why_tests_cant": "Unbounded nesting and all malformed strings.", "anchors": ["crates/jvm-metadata/src/descriptor.rs: parse_field_descriptor, parse_method_descriptor, DescriptorCursor::parse_type"]}
{"id": "C38", "title": "Find-implementations returns the full transitive closure once", "statement": "The implementors reported for a module or class are exactly the namespaces that reach it through the followed subclass and mix-in links, each once and never the origin, for every graph including cyclic ones.", "quantifier": "all finite graphs", "why_tests_cant": "Cycles and mixed link kinds over arbitrary graphs.", "anchors": ["crates/ruby-analysis/src/engine/hierarchy.rs: collect_all_implementors, descendants, mixers"]}
{"id": "C39", "title": "Selection ranges expand outwards", "statement": "For every parse tree and cursor offset the selection chain is non-empty, every range after the first strictly contains its predecessor, and, whenever any syntax range contains the cursor, every range in the chain contains the cursor and the first is a smallest one.", "quantifier": "all sets of syntax ranges and offsets", "why_tests_cant": "Ranges over all trees.", "anchors": ["crates/ruby-analysis/src/indexer/selection_ranges.rs: SelectionRangeCollector::collect_location, finish"]}
{"id": "C40", "title": "Local variable resolution respects scope boundaries", "statement": "Looking a local variable up from a scope finds the definition in the nearest enclosing scope reachable without crossing a method, class or module boundary, and the set of places reported as referring to a variable belongs to that one variable.", "quantifier": "all scope trees built by any sequence of enter, exit, define and reference calls", "why_tests_cant": "Shadowing and nesting combinations are unbounded.", "anchors": ["crates/ruby-analysis/src/indexer/variable_scopes.rs: VariableScopes::find_variable, reference_variable, find_rename_targets, enter_scope, define_variable"]}
{"id": "C41", "title": "Which navigation keys the controller accepts", "statement": "Every non-empty key produced by normalize_navigation_key passes the assertion of request exactly when lower-casing maps alphanumeric characters to alphanumeric characters; since U+0130 lower-cases to 'i' followed by the non-alphanumeric U+0307, a definition request on a constant starting with it fails the assertion.", "quantifier": "all names and all character tables", "why_tests_cant": "Tests use ASCII names; the offending characters are a handful among over a hundred thousand.", "anchors": ["src/navigation_demand.rs: normalize_navigation_key, request, claim_if_requested", "src/query/definition.rs: normalized_definition_navigation_keys"]}
{"id": "C42", "title": "Starting indexing runs concurrently", "statement": "A call of begin_indexing_run fails the demand controller's assertion exactly when the call of a later run has overtaken it between its two steps; serialized calls never fail; overlapping ones can, and a cancellation overlapping a start can cancel the status of a run while its controller stays open.", "quantifier": "all interleavings of any number of begin_indexing_run and cancel_current_indexing_run calls", "why_tests_cant": "The window between the two statements is a few instructions; tests call them from one thread.", "anchors": ["src/server.rs: begin_indexing_run, cancel_current_indexing_run", "src/navigation_demand.rs: begin_generation", "src/indexing_status.rs: begin_run, cancel_current"]}
{"id": "C43", "title": "Shape subtyping is sound", "statement": "When one shape is reported to be a subtype of another, every hash described by the first is described by the second.", "quantifier": "all pairs of types and all hashes", "why_tests_cant": "Soundness quantifies over all values of both types.", "anchors": ["crates/ruby-analysis/src/core/shape_type.rs: ShapeType::is_subtype_of", "crates/ruby-analysis/src/core/ruby_type.rs: RubyType::is_subtype_of"]}
{"id": "C44", "title": "One producer per cached product across processes", "statement": "At any moment at most one reservation exists for a product identity, over all processes sharing the cache; nobody clears or evicts while a reservation is held; and a reservation is only handed out when no valid product is on disk.", "quantifier": "all interleavings of lookups, publications, drops, clears, cleanups and crashes of any number of processes", "why_tests_cant": "Interleavings across processes, including deletion of the lock files themselves.", "anchors": ["src/persistent_cache.rs: lookup_derived_product, clear, cleanup_to_limits, invalidate_compiled_wasm, publish_payload, unlock"]}
{"id": "C45", "title": "Binding a dependency product is all or nothing", "statement": "Binding a product either fails without touching the engine or registers every source of the manifest exactly once, in manifest order, each with the facts produced for that logical path and content; a product restored from disk binds the same way as the one that was stored.", "quantifier": "all manifests, products and file orders", "why_tests_cant": "All mismatches between product and manifest.", "anchors": ["src/dependency_product.rs: GemDependencyProduct::new, encode_persistent_payload, decode_persistent_payload, bind_into_measured, bind_owned_into_measured_with_resolution"]}
{"id": "C46", "title": "Cached fallback chains are never stale", "statement": "The chains of the top level and of Object that are appended to other lookup chains are always those of the current inheritance links, whether they come from the cache or are computed; in particular a link added by a resolution is visible to the next lookup.", "quantifier": "all sequences of fact replacements, resolutions and lookups", "why_tests_cant": "The cache is only wrong after particular interleavings of lookups with deferred replacement and resolution.", "anchors": ["crates/ruby-analysis/src/engine/resolution.rs: append_top_level_instance_fallback, append_universal_object_fallback", "crates/ruby-analysis/src/engine/state.rs: replace_facts_deferred, retry_unresolved_graph_edges, resolve, resolve_files"]}
{"id": "C47", "title": "Renaming a local variable changes exactly the occurrences of that variable", "statement": "The places returned for a rename at a cursor are exactly the places of the occurrences of the variable under the cursor: same name and same defining scope as Ruby resolves it, each once and in source order; no place of a shadowing or shadowed variable is changed, none of the variable itself is left out; no variable under the cursor means no change.", "quantifier": "all syntax trees and cursor positions", "why_tests_cant": "Scopes nest without bound, and the two traversals number them independently; tests cover a few nestings.", "anchors": ["crates/ruby-analysis/src/indexer/rename.rs: find_rename_targets, process_local_var, defining_scope_id, push_scope, pop_scope, the visit_* functions"]}
{"id": "C48", "title": "Code reported as always leaving never ends normally", "statement": "When the control flow analysis calls a statement diverging, no run of it ends normally, so a statement reported as unreachable is never started; the reported set of exits contains every way the statement can leave apart from exceptions; code said to leave the method returns or raises and does nothing else; and a block without unsupported exits ends normally, with next or an exception.", "quantifier": "all syntax trees and all runs of them (any outcome of conditions and calls, any number of iterations)", "why_tests_cant": "Branches, rescue clauses and loops nest without bound and the claim is about all runs; tests compare a few snippets with the expected answer and run no Ruby.", "anchors": ["crates/ruby-analysis/src/inference/control_flow.rs: analyze, analyze_statements, analyze_if, analyze_case, analyze_case_match, analyze_begin, is_diverging_loop, is_terminating_call, exits_method, has_unsupported_higher_order_exit", "src/capabilities/diagnostics.rs: extract_unreachable_diagnostics"]}
{"id": "C49", "title": "What is reported about the arguments of a call is an error in Ruby", "statement": "A reported wrong number of arguments, unknown keyword or missing keyword means that binding the arguments fails in Ruby, whatever values the argument expressions, splats and keyword splats have; conversely a call whose arguments are written out and about which nothing is reported binds; and the comparison never fails its assertion.", "quantifier": "all parameter lists, argument lists and values of the arguments", "why_tests_cant": "Parameters and arguments of each kind combine without bound, and the claim is about all run time values of splats and hashes.", "anchors": ["crates/ruby-analysis/src/indexer/analysis_indexer.rs: method_param_facts", "crates/ruby-analysis/src/indexer/fact_collector/call_node/mod.rs: method_signature_candidate_from_arguments, positional_argument_may_be_options_hash", "crates/ruby-analysis/src/engine/diagnostic_helpers.rs: MethodArity::from_params, arity_mismatch", "crates/ruby-analysis/src/engine/diagnostics.rs: push_signature_diagnostics"]}
{"id": "C50", "title": "Suggested names are the nearest ones", "statement": "The distance computed for two names is the least number of single character changes leading from one to the other; a suggested keyword or method is the first of the nearest candidates and within the tolerance, and there is no suggestion only if the name is too short or all candidates are farther away than the tolerance.", "quantifier": "all names and lists of candidates", "why_tests_cant": "The distance is defined by a minimum over unboundedly many sequences of changes; tests compare a few pairs.", "anchors": ["crates/ruby-analysis/src/engine/diagnostic_helpers.rs: levenshtein, closest_keyword, suggestion_threshold", "crates/ruby-analysis/src/engine/diagnostics.rs: find_method_suggestion"]}
{"id": "C51", "title": "Semantic tokens are seen where they are in the text", "statement": "A client that decodes the answer to a semantic tokens request as the protocol says sees every token at the line and UTF-16 column where its text starts, with the length of its text and with its own kind and modifiers in the legend, exactly if the tokens are reported in the order of the text; otherwise a build with overflow checks panics and a release build shows wrong positions. For code written in the order in which the visitor goes through it, the request answers and the client sees exactly the tokens of the code's variables, constants and method names.", "quantifier": "all texts, all lists of tokens in them, all syntax trees", "why_tests_cant": "Each token is relative to the one before it, so one misplaced token spoils all that follow; tests decode a few samples and none with an operator before its operand, a modifier loop, a named capture or a heredoc with interpolation, where the claim is refuted.", "anchors": ["crates/ruby-analysis/src/indexer/semantic_tokens.rs: TokenVisitor::add_token, token_type_to_index, token_modifiers_to_bitset, visit_call_node, visit_if_node, visit_unless_node, visit_constant_path_node", "src/capabilities/semantic_tokens.rs: get_semantic_tokens_full, TOKEN_TYPES, TOKEN_MODIFIERS"]}
{"id": "C52", "title": "The types tracked for local variables describe their values", "statement": "When a piece of code has ended with a value, every local variable has a value described by its type in the tracked environment and the value of the code is described by its type; what a method returns, at its end or by return, is described by the method's type, and a method without a type never returns; the type recorded for a read of a variable describes every value read there; in a rescue clause the variables are as the environment for it says. This holds for code in which loops assign types that do not change from round to round and which avoids the listed constructs, for each of which a counterexample is proven.", "quantifier": "all syntax trees of the supported form, all knowledge about methods and constants that is right, all runs (any outcome of calls and comparisons, exceptions anywhere, any number of iterations)", "why_tests_cant": "Branches, handlers and loops nest without bound and the claim is about the values of all runs; the tests compare inferred types with expected ones and run no Ruby.", "anchors": ["crates/ruby-analysis/src/inference/type_tracker/mod.rs: track_node, track_assignment, track_if, track_case, track_begin, track_rescue_modifier, track_while, track_until, track_unless, track_short_circuit, merge_env, join_branch_types, track_method_once, take_local_read_types", "crates/ruby-analysis/src/inference/type_tracker/narrow.rs: narrow"]}
{"id": "C53", "title": "The tracking of hashes in local variables completes and its tables belong together", "statement": "For every method body in which no hash literal that is too large is written in an array literal and no variable that holds an array with hashes in it is narrowed to something else, the tracking of hashes completes without an assertion failing; afterwards every name with hash identities has a type and its identities exist, known identities consist of hash shapes, containment edges join two different existing identities with one child for each key, arrays are consistent, and every known identity has at most eight aliases. Giving up hashes gives up exactly those connected with them through containment, and changes no other. An array literal panics exactly if it contains a hash literal that is too large, and a narrowed array with hashes in it panics at the next time another hash gets a name: both are proven to happen for small methods.", "quantifier": "all method bodies of the modelled form (any nesting of branches), all environments reached by them", "why_tests_cant": "The assertions are about tables reached through any sequence of assignments, changes, conditions and merges of branches; tests run a few bodies each, none with an array of hashes under a nil? or is_a? condition.", "anchors": ["crates/ruby-analysis/src/inference/type_tracker/mod.rs: FlowEnvironment (bind_shape_identities, invalidate_shape_identities, enforce_alias_bounds, synchronize_bindings, bind_array_shape_aliases, merge), array_element_alternatives, track_assignment, track_shape_index_write, transform_shape_identities"]}
{"id": "C54", "title": "All names of a hash say the same of it, changes reach all of them, and branches keep what both sides know", "statement": "In every environment reached by code whose hash mutations concern hashes that are all known and not contained in others, the shapes in the type of a name are exactly those of the hashes it is bound to, so two names of the same hashes have the same shapes; after y[:k] = v, y.delete(:k), y.clear or y.freeze every name is unknown or its shapes are the earlier ones, with exactly the change applied (frozen hashes excepted) to those of a hash of y and the others untouched; and if types from outside do not mix hashes with other things, then after a branch a variable's type has every alternative of either side (nil if unassigned on one), unless it is unknown. Outside of these conditions the tracking is proven wrong for short methods: a write through a name that may be either of two hashes is recorded for both, stops halfway if one was given up, is forgotten for hashes mixed with nil or under a key? condition when a parent exists, a condition on one variable removes alternatives of another, joins drop hashes that were mixed with nil, and a hash inside a literal of unknown parts does not escape with it.", "quantifier": "all method bodies of the modelled form under the stated conditions, all environments they reach, all variables, keys and values", "why_tests_cant": "Which names alias which hashes depends on the whole history of assignments and merges; tests check a handful of fixed snippets with one or two names.", "anchors": ["crates/ruby-analysis/src/inference/type_tracker/mod.rs: transform_shape_identities, propagate_contained_shape_updates, synchronize_shape_aliases, apply_shape_identity_narrowing, merge_env, track_assignment, link_shape_literal_children"]}
{"id": "C55", "title": "What the tracked types say of hashes in variables is true of the hashes in every execution", "statement": "For method bodies in which hashes contain no hashes and only variables that stand for one known hash (or for none) are mutated or asked for keys, and for every execution of such a body on a heap with shared hashes, where code outside may at any call change every hash it was ever given and create new ones: when the body ends, every variable with a type holds a value that the type describes, so if the type is a shape then the variable holds a hash that has every required field, with a value of the field's type, and no key beyond the fields of a closed shape; a variable without a type holds nil. The analysis of such a body always ends. Without the condition on mutations this is false: after a write through a variable that is one of two hashes, the type of the other hash claims a field that the hash does not have.", "quantifier": "all method bodies of the modelled form under the stated conditions, all executions with any interference by other code, all values, all variables", "why_tests_cant": "The claim compares the static type with every run of the code, over all heaps, all aliasing and all behaviour of foreign code; tests compare inferred types with expected strings and never execute the analysed Ruby.", "anchors": ["crates/ruby-analysis/src/inference/type_tracker/mod.rs: FlowEnvironment, track_assignment, transform_shape_identities, invalidate_identities, synchronize_shape_aliases, apply_shape_identity_narrowing, merge_env", "crates/ruby-analysis/src/core/shape_type.rs: ShapeType::try_new"]}
{"id": "C56", "title": "Method definitions and visibilities in the index are those that running the code produces", "statement": "Indexing any file made of classes, modules, singleton classes, defs, visibility keywords and visibility calls completes without a failed invariant, and leaves the scope tracker as it was but for the current visibility; bodies of methods, classes and modules change nothing outside. For plain code (no def on other objects, no constructors, no module_function, nothing but methods in class << self, no definitions in methods) the method facts are exactly the definitions that running the code makes: owner, name, place and order. For plain code that also avoids the forms below, the visibility overrides are exactly the visibility changes that run, and after the run each method has the visibility that its fact shows. Five forms are shown to be recorded with another visibility than Ruby's: private def, def self.m in a private section, initialize in a private section, def at the top level and module_function; and class ::A inside of a module is recorded under the module.", "quantifier": "all programs of the modelled syntax, all nesting depths, all sets of known classes", "why_tests_cant": "The tracker state after any body depends on unbounded nesting of five stacks; tests index a few snippets and look at single facts, and never compare with what Ruby does.", "anchors": ["crates/ruby-analysis/src/indexer/scope_tracker.rs", "crates/ruby-analysis/src/indexer/fact_collector/def_node.rs", "crates/ruby-analysis/src/indexer/fact_collector/call_node/mod.rs", "crates/ruby-analysis/src/indexer/fact_collector/mod.rs: set_method_visibility"]}
{"id": "C57", "title": "The callee found for a method call is the method that Ruby runs", "statement": "Over the facts that indexing a plain program leaves: a call without receiver or on self resolves to exactly one callee, whose owner is the class of the method that Ruby runs and whose ranges contain its definition and only definitions of it; every exact callee is run for the receiver, for a class that includes it, or for a class that evaluates the code; super reaches the first definition after the class, or nothing; a call of a method that does not exist goes to the program's method_missing, or to the receiver alone. For calls on other objects the same holds with Ruby's rules for private and protected methods if definitions come before their visibility changes, changes are not idle, and no method that may not be called hides one that may; then a rejected call has no callee. Each of the three conditions is needed (counterexamples), and a rejected call does not go to method_missing though Ruby sends it there.", "quantifier": "all programs of any number of files, all ancestor chains, all receivers, methods and callers", "why_tests_cant": "The claim relates lookup to Ruby's method tables for every program and every ancestor chain, including entries that only carry a visibility; tests check single lookups.", "anchors": ["crates/ruby-analysis/src/engine/resolution.rs: resolve_method_callees_inner, method_callee_in_chain, method_facts_in_chain, effective_method_visibility_for_chain, private_method_in_chain, method_missing_callee_in_chain, resolve_super_method_callee", "crates/ruby-analysis/src/engine/state.rs: method_facts_matching_owner_name, retain_effective_method_availability"]}
{"id": "C58", "title": "A class file is read as the class that it encodes, and nothing else is read as a class", "statement": "A class is read from bytes exactly if the bytes are within the size limit and are an encoding of that class by the class file format of the Java Virtual Machine Specification, with the limits on counts, attribute sizes and annotation nesting: constant pool with two slots for long and double, strings in modified UTF-8 and no other form, valid descriptors, attributes that are used up exactly, no bytes left over. So no class file is the beginning of another, cut off and extended files are rejected, an accepted file has one reading, and larger limits never change or reject what smaller ones accept. Every method has as many parameters as its descriptor; they are named by MethodParameters, else after the variables in their slots (two slots for long and double, one before for the receiver), else by position. Shown not to hold: the limit on nesting bounds annotations but not arrays in annotations, which are nested as deep as the attribute is long; a method with two LineNumberTable or LocalVariableTable attributes, which the specification allows, makes the class unreadable; a record without components is taken for a class.", "quantifier": "all byte sequences, all limits, all classes", "why_tests_cant": "Both directions range over all byte sequences, and the grammar has tables of tables of attributes; tests parse a handful of compiled classes and a few corrupted ones.", "anchors": ["crates/jvm-metadata/src/classfile.rs: parse_class, parse_constant_pool, decode_modified_utf8, parse_members, parse_annotations, skip_annotation_value, parse_code_metadata"]}
{"id": "C59", "title": "The classes of a JAR or JMOD are those that its entries provide for the JDK's release, whatever the order of its entries", "statement": "The classes of an archive are read exactly if the file is within its size limit; holds a ZIP archive whose central directory has as many records as the end record says, ends at the end record and has no name twice; the ZIP reader shows as many entries; all their names are different, relative and without `..`, also of entries that are not read; the entries that matter have the size that they declare and are within the limits together; no class below META-INF/versions/ lies outside of the directory of a release from 9 on; and every chosen class file can be read and declares the class of its path. The result is ordered by class name and has, for every class that any entry provides, the class of exactly one entry: in a JAR whose manifest says so the latest release that the JDK has, else that at the root. It does not depend on the order in which the entries are shown. Shown not to hold against the JAR specification: release directories `009` and `+9` count, even before `9`; `Multi-Release: true` counts in any section of the manifest and without a blank; an entry below META-INF/versions that the JVM ignores makes a JAR for one release unreadable; one bad class makes all unreadable; archives with bytes prepended are not read; a comment with the bytes of an end record hides the archive.", "quantifier": "all byte sequences, all ZIP readers, all limits, both kinds, all JDK releases", "why_tests_cant": "The characterisation ranges over all byte sequences and sets of entries; tests build a few small archives and a few corrupted ones, in one order.", "anchors": ["crates/jvm-metadata/src/archive.rs: parse_archive, validate_central_directory_names, class_candidate, manifest_is_multi_release, validate_entry_name, is_metadata_entry"]}
{"id": "C60", "title": "The types in YARD comments are read as YARD defines them", "statement": "For types as YARD writes them (nil, true, false, Boolean, paths of constants, Array<...>, Hash<K, V> and Hash{K1, K2 => V1, V2}, with any white space), in which hashes with braces are on the outside or last in the brackets around them with one type of values: the list in the brackets of a tag is split at the commas between types and nowhere else, each type becomes exactly what it means, and what is stored for the tag describes exactly the values that one of its types describes, as a union without repetitions that never hides an unknown member. A hash with braces inside of another becomes a hash of anything, so what is stored still covers what is documented. For every text, the recursion ends and all class names in the result are paths of constants. Shown not to hold otherwise: the `>` of `=>` closes a bracket, so that `Array<Hash{A=>B},C>` is torn apart, `Array<Hash{A=>B,C}>` loses its elements and `Hash<Array<Hash{A=>B},C,D>,Array<E>>` becomes a type that excludes the documented values; `void` is taken for nil; a class called Void, Nil or Bool is taken for the word.", "quantifier": "all types of YARD's grammar of any depth, all ways to write them, all Unicode tables; for the last claim all texts", "why_tests_cant": "The grammar is recursive and white space is free; tests have a handful of flat types and never a hash with braces followed by a comma in brackets.", "anchors": ["crates/ruby-analysis/src/indexer/yard/parser.rs: parse_type_list", "crates/ruby-analysis/src/indexer/yard/converter.rs: YardTypeConverter", "crates/ruby-analysis/src/core/ruby_namespace.rs: RubyConstant::new"]}
{"id": "C61", "title": "The YARD comment of a method is found and its tags are read as written, at the right place", "statement": "For every text before a method: the comments found for the method are exactly the comment lines with nothing but blank lines and comments between them and the method, in order, each with its line number, its text without number signs and surrounding white space, and the byte at which the text begins, and there is no panic. A tag alone on its line (@param in both orders, @option with or without default, @return, @yieldparam, @yieldreturn, @raise, @deprecated, @unavailable, @absent) adds exactly its name, types and description and nothing else; the documentation is that of all tags in order, and the description is that of the texts before the first tag. The range of the types is where they stand with their brackets, in bytes, and in editor columns if the line is in ASCII up to there. For a position in the first brackets of a comment line, the type found is the class at the head of the type written there, with its range. Shown not to hold otherwise: a tag mentioned in the description of another tag replaces it; a method with only @yieldparam has no documentation; the comment above `private def` is not found; magic comments and licences over blank lines become the description; columns are bytes; behind a hash with braces, and on the closing bracket, the type found is another.", "quantifier": "all texts, all lines and line ends, all tags, names, types and descriptions, all positions", "why_tests_cant": "The regexes are not anchored and positions are computed from several lengths; tests use one tag per line in ASCII with fixed indentation.", "anchors": ["crates/ruby-analysis/src/indexer/yard/parser.rs: YardParser::collect_preceding_comments, parse_lines, parse_tag, find_type_at_position, split_types_with_positions, extract_base_type", "crates/ruby-analysis/src/indexer/yard/types.rs: YardMethodDoc"]}
{"id": "C62", "title": "Method references are resolved as specified, and the cache of a pass does not change them", "statement": "For every set of facts, every graph of ancestors and every order of references: a reference resolved with a cache that other lookups have filled has the answer that it has with a fresh cache, and so do all references of a pass; the answer does not depend on how deep the recursion may go. Every answer is one of the specification: the first owner of the receiver's chain at which something stands (absent facts mask it, unavailable ones replace available ones), unique if one fact stands there; for a module the one owner that its includers reach; nothing behind unresolved ancestors; the metaclass; the targets of an execution context if they agree; method_missing unless it is the default one. A fact that is neither of the core nor the receiver's own is unique only if no open root is crossed. Resolving never panics, and it ends if no execution context is applied to itself through others. Shown not to hold otherwise: with a context applied to itself, the recursion does not end; through a module the first of two definitions is the answer, though the second is in force and the reference from the class is ambiguous; a method defined twice in a class is found by going to its definition, but a call of it is no reference to it; a receiver's own method_missing comes after that of the targets of its context.", "quantifier": "all facts, chains, metaclasses, includers and execution contexts, all receivers and names, all sequences of lookups with one cache", "why_tests_cant": "The cached answer of a metaclass is shared by receivers though it is computed with one of them, so it is right only because of what other steps have excluded; tests use one lookup per cache and acyclic contexts.", "anchors": ["crates/ruby-analysis/src/engine/resolution.rs: resolve_method_reference, resolve_method_reference_with_chain_cache, MethodLookupChainCache, non_core_fact_requires_ancestry_proof, unproven_universal_method_exists, method_lookup_chain_for_reference_cached", "crates/ruby-analysis/src/core/method_store.rs: effective_fact_matching_owner_name, ruby_method_names_for_owner", "crates/ruby-analysis/src/engine/diagnostics.rs: resolve pass"]}
{"id": "C63", "title": "Saved facts of a dependency come back as they were, or not at all", "statement": "For all facts of a file: a template is made exactly if, after locals, expression types, callables with captures and inference evidence are dropped, there are no references, diagnostics and contexts, no generated owner in a declared name or in a type fact, and no range of another file; it can then be moved to every file without a failed assertion, and only the file of its ranges changes. A template is saved exactly if its callable bodies are within the documented bounds. What was saved is restored exactly if every name has at most 4096 parts and every type at most 64 levels, and in every file the restored template has the facts of the original; otherwise there is an error, never other facts. Whatever a snapshot holds, restored facts are well made, within limits and bounds, in the neutral file and without anything of a project; they are saved and restored to themselves; restoring panics only for a method parameter with an empty name. Shown not to hold otherwise: a type of 65 or more levels is accepted and saved but never restored; a generated owner in a signature or in a callable body is accepted; a snapshot with an empty parameter name panics.", "quantifier": "all facts, templates, target files and snapshots (also ones changed on disk), with every nesting of types, signatures and bodies", "why_tests_cant": "The snapshot mirrors some forty types by hand; a field lost or swapped in one of them only shows for facts that use it after a restart, and the tests round-trip a few files.", "anchors": ["crates/ruby-analysis/src/engine/external_facts_template.rs: ProjectNeutralFileFactsTemplate::{try_new, instantiate, to_persistent_snapshot, try_from_persistent_snapshot}, snapshot_* and restore_* functions", "crates/ruby-analysis/src/core/callable_body.rs: CallableBodySummary::validate", "src/dependency_product.rs: loading and saving products"]}
{"id": "C64", "title": "A call with a block gets the type its signature gives it", "statement": "For all receivers, overloads, bindings of the receiver, argument types, block results and states left by the block: if types for the block's parameters are found, they are, for every overload whose number of arguments fits, exactly what its signature names when each type variable stands for what receiver and arguments say; if a type of the call is proven, it is, for every such overload, exactly the declared return type when each variable stands for what receiver, arguments and block result say, and nothing in it is unknown. `self` never reaches the places that panic on it. If an overload describes the method, its required parameters come first, arguments are values of the concrete types they are compared with, the block is typed correctly and its result tells nothing new about the variables its parameters are made of, then every value the method can return is described by the proven type. Shown not to hold otherwise: a block whose result widens its own parameter is typed once only; the state the block leaves is claimed even if the block never runs; parameters behind a rest parameter get the wrong arguments; an argument of a wider type is accepted; an array in a union parameter is never matched.", "quantifier": "all signatures (any nesting of templates), all types, all worlds of Ruby values, all methods and blocks as relations between values", "why_tests_cant": "The tests type a few calls of `map`, `inject` and `each_with_object` with two or three classes; that the proven type is sound needs every conforming method, block and value, and the interplay of templates, unions, shapes and overloads is unbounded.", "anchors": ["crates/ruby-analysis/src/inference/higher_order.rs:18-330", "crates/ruby-analysis/src/inference/higher_order.rs:378-435", "crates/ruby-analysis/src/inference/higher_order.rs:521-800", "crates/ruby-analysis/src/core/callable_signature.rs:23-62", "crates/ruby-analysis/src/core/ruby_type.rs:337-340"]}
{"id": "C65", "title": "Reading from a hash with known keys gives a type that describes what is read", "statement": "For all types whose shapes are as the analyzer builds them and have plain rest keys, all hashes of the type and all keys, literal or not: if the type of `h[k]`, `h.fetch(k)`, `h.fetch(k, d)`, `h.dig(k1, \u2026)`, `h.keys`, `h.values` or `h.key?(k)` is proven, it describes every value that the operation can give. For a literal key nothing is invented: each alternative of the type of `h[k]` or `fetch` comes from the field under this key, from the rest values when the key is not listed, or is nil or the default when some alternative of the hash does not require the key. `key?` is answered with true exactly when every alternative requires the key and with false when all exclude it. None of the operations but `values` (which widens literals) can panic. Shown not to hold otherwise: with a rest key type such as Object, which is not known to be above Symbol, `h[:a]` is said to be nil and `h.key?(:a)` to be false though the hash may contain `:a`.", "quantifier": "all types, all worlds of Ruby values, all hashes, keys, defaults and paths of keys", "why_tests_cant": "The tests read a few fields of a few shapes; nesting, optional fields, open shapes, rest types, unions of shapes and non-literal keys combine without bound, and soundness speaks of every hash a type describes.", "anchors": ["crates/ruby-analysis/src/inference/type/shape.rs:11-125", "crates/ruby-analysis/src/inference/type/shape.rs:178-347"]}
{"id": "C66", "title": "Calling a summarised lambda or proc gets a type that describes its result", "statement": "For all summaries of lambda and proc bodies, argument types, captured types and resolvers: if the evaluation of the summary answers with a type, and the resolvers of methods and captured callables are right, then for all arguments and captured values of these types every value that the body can give is described by the answer, provided the callable is a lambda, or no single argument can be an array, or there is at most one parameter. An answer has no unknown parts, is nested at most 8 deep with unions of at most 8, and took at most 16 calls; it is only given for summaries with at most 4 parameters, 8 captures and 64 correctly counted nodes that refer to existing parameters and captures, for known argument types, known captures and, for lambdas, an admissible number of arguments. Shown not to hold otherwise: a proc with two parameters called with one array takes it apart, which the evaluation does not know.", "quantifier": "all summaries (expressions of any form), all argument and capture types, all right resolvers, all worlds of Ruby values and method calls", "why_tests_cant": "The tests instantiate a few bodies; soundness quantifies over all expression trees, all values of the argument types and all behaviours of the called methods.", "anchors": ["crates/ruby-analysis/src/core/callable_body.rs:14-275", "crates/ruby-analysis/src/inference/callable_body.rs:32-420"]}
{"id": "C67", "title": "A lambda or proc literal is summarised as what it does", "statement": "For all lambda and proc literals whose `return`s and `next`s come last, whose conditions and interpolated parts neither assign nor leave, that have no `&.`, whose defaults assign nothing and whose block-local variables do not hide captured ones: if the literal is lowered to a summary, then for all values of the outer variables, all arguments and all behaviours of the called methods, every value that a call of the literal can give is a value of the summary under the bindings of the call. Together with C66: the type computed for a call describes every value the call can give. The summary has one parameter for each of the literal's, passes the validation of C66, and branches are left out only when they can give no value. Shown not to hold otherwise: an early `return` or `next` is forgotten; an assignment in a condition or an interpolation is not seen; `v&.m` is taken for `v.m`; a block-local variable is taken for a captured one; a branch that ends with `raise` is dropped with the `return`s in it; an assignment in a default is taken to happen in every call.", "quantifier": "all literals (syntax trees of any size and nesting), all outer scopes, all worlds of Ruby values and method calls, all runs", "why_tests_cant": "The tests lower a dozen literals and compare the summaries; that a summary covers all runs of all bodies, through branches that merge locals, dead branches, defaults and captures, is a statement about unboundedly many programs and executions.", "anchors": ["crates/ruby-analysis/src/indexer/callable_body.rs:32-513", "crates/ruby-analysis/src/inference/type/literal.rs:438-446"]}
{"id": "C68", "title": "Types written in RBS signatures are read as what they mean", "statement": "For all types of RBS whose names are written from the root, that have no `void`, and in which the type parameters of the class are bound by the receiver's type and stand under no tuple: every value of the written type is described by the converted type, and, unless something in it is unknown, integer literals or other generic classes apart, no other value is. A name is converted to a class exactly if it is a path of constants, a record to a shape with its fields; each type argument is bound to the name of its parameter without variance marks; the signature used is the last one declared for the class, the kind and the method, and there is a type exactly for declared methods. Hence the type given for a method with one signature describes every value the signature allows. Shown not to hold otherwise: only the first of several signatures is used; below a tuple type parameters become classes (`Hash#to_a` gives arrays of `K` and `V`); so do the type parameters of a method, and of a class whose arguments are not known (`(1..3).first` is an `Elem`); only the first element type of an array is bound (`[1, \"a\"].first` is an Integer); `void` becomes nil; a reopened class replaces signatures; relative names are taken from the root.", "quantifier": "all RBS types (any size and nesting), all lists of declarations, all worlds of Ruby values, all bindings of type parameters", "why_tests_cant": "The tests look up a few core methods; that the conversion loses no value of any type, through unions with bounds, optional types, records with limits and substitution, is a statement about infinitely many types and values.", "anchors": ["crates/ruby-analysis/src/inference/rbs.rs:580-834", "crates/rbs-parser/src/loader.rs:176-282", "crates/rbs-parser/src/types.rs:243-246"]}
{"id": "C69", "title": "The type of a method call describes what the call gives", "statement": "For all receiver types, methods, project answers and RBS indexes: if what the project says about its methods is right, calls of other methods give what their RBS signatures say, `new` makes instances, and RBS is asked about the class by its path or about arrays with one type of elements, with signatures that are read correctly (C68), then the type given to a call describes every value the call can give. A union gets a type only if each member does; the type is made of exactly what they get; and it gets one whenever they do, unless more than eight shapes come together. A given type is not unknown and has no union with an unknown member; no panic happens if the project's types have none and the shapes can be widened. For classes the project is asked first, then RBS by path, then by last name, and without an answer there is no type; private methods are only looked for if allowed; hash operations that need arguments get no type. Shown not to hold otherwise: a class `Foo::Time` of the project gets the methods of the core class `Time`; a `new` of a class's own is ignored; the project is never asked about arrays and hashes; `[1, \"a\"].first` is an Integer; names such as `!` get no type.", "quantifier": "all receiver types (any unions, also nested), all method names, all project answers, all RBS indexes, all worlds of values and calls", "why_tests_cant": "Tests check a few receivers and methods; soundness relates the order of sources, unions of any size, generic arguments and every value a call may give.", "anchors": ["crates/ruby-analysis/src/inference/method/return_type.rs:75-149", "crates/ruby-analysis/src/inference/method/return_type.rs:185-345", "crates/ruby-analysis/src/inference/type/shape.rs:120-165", "crates/ruby-analysis/src/engine/lookup.rs:305-337", "crates/ruby-analysis/src/core/type_inference_outcome.rs:598-624"]}
{"id": "C70", "title": "Methods are found where the RBS declarations say they are", "statement": "For all lists of RBS declarations, also with circles: the method found for a call with a block is declared by the class of the receiver or by something it inherits from, and is the first one in the order of the ancestors (included modules in declared order, then the superclass, `Object` if none is written). If only one of them declares it, it is that one; if no declaration includes more than one module, it is the one Ruby finds. The bindings that come with it are those of the type parameters of the declaration it was found in, and each describes what the parameter stands for, for every value of the receiver's type, if names are written from the root and no arguments of superclasses and modules have type parameters below tuples. If all that is inherited from is declared with as many parameters as there are arguments, then a method is found exactly if one is declared. The list of all methods of a class has each name once, exactly the names of methods and aliases of what can be reached, each with what the first one says; whether a method exists is answered from the declarations alone, whatever was asked and cached before. Shown not to hold otherwise: of two included modules Ruby takes the last one; prepended modules are ignored; aliases are not found for calls with a block (`{ a: 1 }.select { }`); the elements of `{ a: 1 }.map { }` are arrays of the classes `K` and `V`; a class object gets instance methods; of a path only the last name counts; one undeclared module hides the methods of the superclass; an alias takes the first method of the old name of any kind; modules a class is extended with are ignored.", "quantifier": "all lists of declarations (any inheritance graph, also circular), all receiver types, all method names, all sequences of queries, all worlds of values", "why_tests_cant": "Tests look up a few core methods; order, completeness and the meaning of bindings depend on arbitrary graphs of classes and modules, with diamonds and circles, through any number of generic steps.", "anchors": ["crates/ruby-analysis/src/inference/rbs.rs:43-70", "crates/ruby-analysis/src/inference/rbs.rs:257-458", "crates/ruby-analysis/src/inference/rbs.rs:836-1255"]}
{"id": "C71", "title": "Calls with a block of methods declared in RBS get types that describe what they return", "statement": "For all declarations, receivers, arguments and blocks: the template made of a written type describes every value of the type (no `void`, no type parameters in records, none written with `::`), and only such values (no generic types but arrays and hashes, no integer literals, no `bot`, no `self`), whatever the type parameters stand for; so a method that keeps an overload of its declaration keeps the signature made from it; and so, with C70 and C64, the type found for a call describes what the call returns, for every value of the receiver's type, if the method keeps its declaration and the block, given values of the types it is told, answers with values of the type found for it. For methods without arguments whose block answers with a type parameter of their own (`map`, `group_by`, ...) nothing is asked of the type the block answers with. Types of classes, type parameters, `self` and `untyped` in arrays, hashes, options and unions of at most 8, nested at most 7 deep, always have templates. Shown not to hold otherwise: a block declared to answer `void` must answer nil (`[1].each { 2 }` gets no type); a method that returns `void` is said to return nil; `bot` is any value; `::Elem` is the type parameter `Elem`; type parameters in records are classes; one unsupported overload disables all others; in `{ a: 1 }.map { |x| }` the block is told arrays of the classes `K` and `V`.", "quantifier": "all lists of declarations, all receiver types and values, all argument types and values, all blocks, all worlds of values, all meanings of type parameters", "why_tests_cant": "Tests compare the types of a few calls with expected ones; that the types describe all values needs the meaning of written types for every meaning of the type parameters, and all blocks.", "anchors": ["crates/ruby-analysis/src/inference/higher_order.rs:340-378", "crates/ruby-analysis/src/inference/higher_order.rs:437-519", "crates/ruby-analysis/src/inference/rbs.rs:43-70", "crates/ruby-analysis/src/inference/rbs.rs:294-305", "crates/ruby-analysis/src/inference/rbs.rs:459-496"]}
{"id": "C72", "title": "The cached products on disk are kept within limits, the oldest go first", "statement": "A cleanup whose removals succeed leaves the number of files and their bytes within the limits; what goes is older (time of change, then path) than what stays; not even the youngest of what goes could have stayed; there is only one such choice, so the order in which directories list files does not matter; the accounting says exactly what is left; a file younger than all others stays if it alone keeps the limits. Whatever the removals answer, a cleanup that ends leaves the limits kept, its arithmetic does not underflow, and a failing one removes older files before younger ones. For all interleavings of any number of processes and threads that look up, reserve, publish, record, clean up, clear, reject compiled modules, crash or lose files: from a time when the limits are kept, the number of files exceeds its limit by at most 64 for each process, one for each publication that has not returned, and the explicit losses of disturbances; and the bytes by 256 MiB for each of these. A single process that is not disturbed exceeds the limits only by publications that have not returned. However far the limits are exceeded, when an undisturbed process has recorded 64 publications and has no cleanup left to do, they were kept at some time. Shown not to hold otherwise: two processes exceed the limits with nothing under way; a file that somebody else removes is not taken off the counts, so more goes than has to; `clear` sets the accounting after unlocking, so a single process exceeds the limits; rejecting compiled modules while publications are under way lets the cache grow without limit and without any cleanup; a cleanup that cannot get its lock is given up; temporary files left by crashes are neither counted nor removed; when the clock goes back the product just published is evicted.", "quantifier": "all directories, limits, answers of removals, numbers of processes and threads, and all interleavings of their steps", "why_tests_cant": "Tests run one cleanup in one process; how far several processes with their own accounting can drift is a property of all interleavings, and so are the races of clear and of rejections.", "anchors": ["src/persistent_cache.rs:300-329", "src/persistent_cache.rs:339-431", "src/persistent_cache.rs:449-479", "src/persistent_cache.rs:541-634", "src/persistent_cache.rs:691-777", "src/persistent_cache.rs:1163-1205"]}
{"id": "C73", "title": "Edits of formatters replace the whole document, offences of linters are shown where they are, and `end` is added at the cursor", "statement": "Read as an editor reads positions (lines end at \\n, \\r\\n and \\r, columns are UTF-16 units): the end that is reported for the whole document is its end exactly if no carriage return stands outside of \\r\\n; then applying a formatter's edit gives the formatted text, and no edit means the text was formatted; otherwise the end of the old text stays behind the new one. For a text without such carriage returns, a line and a number of bytes in a linter's report is shown at exactly that place, every place in a line is shown, and a report is shown with one range for each offence. On a line feed, the look at the tree finds exactly the texts with a conditional and no assigned one; what is added is one line with `end` at the cursor, indented like the line before, and nothing else is changed; a line with only a comment asks for none. Shown not to hold: RuboCop's columns count characters, so after a letter like \u00e9 offences are shown at the wrong place, or the whole report is lost; an offence in an empty file is an error; in every text with a conditional that is not assigned, `end` is added after each line on which a line feed is typed; `end` is added after `puts 1 if x`, `def f = 1` and `class A; end`, and not after `private def f`.", "quantifier": "all texts, answers of formatters, reports, trees and positions", "why_tests_cant": "Which texts an edit covers depends on every mix of line ends and wide characters; tests use a few ASCII lines.", "anchors": ["src/capabilities/formatting.rs:57-75", "src/capabilities/formatting.rs:78-157", "src/capabilities/formatting.rs:166-382", "src/capabilities/code_actions.rs:67-73", "src/linter.rs:363-443"]}
{"id": "C74", "title": "Open documents are in step with the editor, whatever is interleaved under their lock", "statement": "For every execution of one document (notifications, handlers under the document's lock, the processing of files by other threads, handlers of other documents and of changes on disk that process it without the lock): if handlers are first run in order and no other handler is processing the text when a new one is stored, then whenever nothing is left to do the server has exactly the editor's text and version, also if processings fail; if moreover nothing runs without the lock then and nothing fails, the engine's source and facts are those of the editor's text, and of a closed document the facts are those of its source. What has been sent is always done, after at most ten steps for each notification. Handlers of one document share one lock, handlers of different documents do not, although locks nobody holds are forgotten. Shown not to hold without the conditions: a handler of another document that took the text before a change stores the old text under the new version afterwards; after a close it puts the document back, and changes on disk are then ignored; a change on disk noticed before the document is opened overwrites its facts; versions are never compared; facts of unsaved text stay after a close; a text whose processing failed counts as indexed when opened again; saving never resolves the references of the whole project, because the saved version is already indexed.", "quantifier": "all executions: all notifications, texts, interleavings, failures and writes to disk", "why_tests_cant": "What the server has depends on the interleaving of handlers, threads and other documents; tests await each notification.", "anchors": ["src/capabilities/indexing.rs:145-293", "src/capabilities/indexing.rs:374-548", "src/capabilities/indexing.rs:550-607", "src/capabilities/indexing.rs:658-787", "src/indexer/file_processor.rs:337-606", "src/server.rs:555-564"]}
{"id": "C75", "title": "Every file of a project is indexed once, and those that requests wait for in time", "statement": "The walk of a project, which does not enter .git, finds exactly the files that the policy includes, each once; what is excluded is never included. For every sequence of requests, a run over files without duplicates either indexes each of them exactly once with no assertion failing, or returns an error because it was cancelled or a file cannot be read; every key it reports as completed matches a file of the project, and all files it matches are in that batch or an earlier one; requested batches have at most 64 files, others at most 512 but for that of open documents, and there are at most as many as files and four. A key is deferred only if it matches no file, more than eight, or more than fit. Gems are only reordered: requested ones first in the order of requests, each request with a gem matched to one of its name. The scan for require finds the text between quotes if only ASCII stands before it, and does not panic on ASCII. Shown not to hold: a file that cannot be read fails the whole project; a line like `require \u00e9'` makes the scan panic; a double quote in a comment is taken for the required name; parentheses are not read; `log` and `tmp` are left out at any depth; links are left out by the walk but not when they change; a key whose files are all selected may be deferred; of gems with equal normalised names only one is moved.", "quantifier": "all trees, policies, files, requests, lines and gem names", "why_tests_cant": "Requests may come before any batch and match any files; the scan panics only on particular mixes of bytes and characters.", "anchors": ["src/utils/file_ops.rs:84-196", "src/indexer/indexer_project.rs:185-541", "src/indexer/indexer_project.rs:1423-1475", "src/indexer/indexer_project.rs:1603-1705", "src/indexer/coordinator.rs:161-190", "src/indexer/coordinator.rs:1715-1800", "src/indexer/coordinator.rs:1930-2060"]}
{"id": "C76", "title": "The outline of a document contains every declaration once, below the class or module around it", "statement": "For every syntax tree in which what is inside a class or module starts after it, the outline contains every class, module, method and constant exactly once and nothing else, each directly below the innermost class or module which contains it (class << self is no level of its own) or at the top, whatever its visibility, and at the top in the order of the source. If every node lies within its parent, the range of every symbol contains its selection range and the ranges of its children. If visibility modifiers stand alone in the bodies of classes and classes have proper names, the outline is the tree of declarations with Ruby's visibilities, methods with a receiver or directly in class << self marked as class methods. Shown not to hold: children are in the opposite order of the source; private :a leaves a public and makes the methods after it private; private def a does so too; a call of a method named public of any receiver, also in the body of a method, sets the visibility of the methods after it; constants and classes after private are shown as private; a class whose name is no constant makes methods of the class around it class methods; what attr_accessor defines is missing.", "quantifier": "all syntax trees", "why_tests_cant": "Tests search the symbols by name and so do not see their order; the parent is found through a map of offsets that any nesting of declarations writes to.", "anchors": ["crates/ruby-analysis/src/indexer/document_symbols.rs:39-362", "crates/ruby-analysis/src/indexer/scope_tracker.rs:264-311", "crates/ruby-analysis/src/indexer/scope_tracker.rs:405-423", "src/capabilities/document_symbols.rs:36-164"]}
{"id": "C77", "title": "A search for symbols finds exactly what matches, ranked by quality, and loses only the least relevant", "statement": "For every query, all facts and any number of engines: a name matches exactly if the letters of the query, regardless of case, occur in it in order or the capitals of the query are its first capitals; the exact name ranks above one that differs in case, this above a beginning, and this above everything else, whatever the fuzzy score is; the search of an engine returns only facts of files of the workspace that are not generated and no local variables, as many as match up to the limit, sorted by relevance and then by order of the facts, and one left out is at most as relevant as all returned. Every match of an engine with at most 100 matches is in the answer, and an exact name is whatever else matches unless more than 100 facts have it. The answer is sorted by name and place and contains nothing else; it contains nothing twice if name and place determine a symbol. An empty query lists the first 50 classes, modules and constants of the top level. The last two kinds of matches (beginning of a word, substring) are proved unreachable. Shown not to hold: letters of a query after a capital are ignored (Uxyz finds User); the final order is not that of relevance; qualified names find nothing; two engines that share a place with two kinds return each symbol twice.", "quantifier": "all names, queries, tables of upper and lower case, fuzzy scores, facts and engines", "why_tests_cant": "Tests look up a few names; that branches are unreachable, that the limit loses the right ones and that merging engines removes all copies are statements about all inputs.", "anchors": ["crates/ruby-analysis/src/engine/workspace_symbols.rs:6-277", "src/query/workspace_symbols.rs:18-62", "src/capabilities/workspace_symbols.rs:18-62"]}
{"id": "C78", "title": "The tree of namespaces has every namespace once in its place, and the includers of a module are exactly those that reach it", "statement": "For every set of namespaces and every order in which the hash map returns its keys, the tree built by taking nodes out of the map contains every namespace exactly once, directly below the namespace around it if that is there and at the top otherwise, modules apart from classes, each list sorted by name; two orders give the same trees, and the same answer if names at the top differ. Each section (project, runtime, gems, packages, excluded) has one node per namespace with a fact in it, a class if any of its facts is, with all locations; every fact of a known file is in exactly one section unless generated or of a singleton class. Mixins are listed once each with all places, sorted. The includers of a module are exactly the classes that include or prepend it directly or through a chain of modules, once for each module of a chain that a class includes, each with a correct chain; the search ends for all graphs, cyclic ones included. Shown not to hold: a class that includes a module on two ways is listed once; the order at the top is independent of the map; the cached tree is up to date (its key has byte offsets but no lines); the kind of a namespace is the same in tree and search.", "quantifier": "all graphs, namespaces and iteration orders of the map", "why_tests_cant": "Rust's hash maps iterate in a different order in every run and a test sees few of them; cycles of modules and missing parents occur only in large projects.", "anchors": ["crates/ruby-analysis/src/engine/namespace_tree.rs:30-596", "crates/ruby-analysis/src/engine/namespace_tree.rs:889-926", "src/capabilities/namespace_tree.rs:13-69"]}
{"id": "C79", "title": "The lenses above a module count its includes, prepends, extends and classes, and the folding ranges are those of the document", "statement": "For every document the modules that get a lens are exactly the declarations of modules with valid names, in the order of the text; inside declarations of single constants a relative name gets the full name that Ruby gives it. For every graph of facts the lens for include, prepend or extend lists the places of exactly those edges to the module, each once and sorted; the search for classes ends for cyclic graphs too and finds the definitions of exactly the classes that mix in a module leading to the module, each once; if only modules are mixed in and no module is extended with another one, these are the classes that get the methods of the module. Every lens has the number of its places and is left out when there are none. The folding ranges are exactly the lines of the foldable nodes of more than one line that are not in a method. Shown not to hold: the name is right inside `module A::B` and for `module ::B`; one class is counted once; a class is counted only if it gets the methods; `class << self; include M` is counted; code in methods folds.", "quantifier": "all documents, graphs of facts, positions and settings", "why_tests_cant": "Tests have few modules, no cycles of mixins and no extended modules in between; the number in a title is rarely compared with what Ruby does.", "anchors": ["crates/ruby-analysis/src/indexer/code_lens.rs:1-123", "crates/ruby-analysis/src/engine/lookup.rs:137-207", "src/query/code_lens.rs:54-234", "src/capabilities/code_lens.rs:13-92", "src/capabilities/folding_range.rs:1-214"]}
{"id": "C80", "title": "Signature help is about the innermost call around the cursor, its argument and the parameter that gets it", "statement": "For every document and cursor the call that is found is the shortest call whose name ends before the cursor, whose end is not before it and in whose block it is not, and the first of those; none is found exactly when there is no such call; when calls are nested or apart it lies inside all others around the cursor. The active argument is the number of commas before the cursor when commas follow the arguments directly, and the active keyword is the one whose element is around the cursor. For every number of arguments the parameter shown for a positional argument is the one that Ruby binds it to, if no required parameter follows an optional one or a rest, or if there is one argument for each positional parameter; a keyword shows the keyword of its name, else a named double splat. The active parameter always exists, every label of a parameter is a part of the label of the signature, and help is shown exactly when there is a method or an RBS signature, the project first. Shown not to hold: the help leaves a call behind its closing parenthesis; operators in an argument are passed over; the cursor before a comma counts for the argument before it; required parameters at the end; anonymous double splats; the next keyword; the overload that fits; the first place of a label; labels of positional parameters and keywords differ.", "quantifier": "all documents, cursors, argument lists, parameter lists and overloads", "why_tests_cant": "Tests put the cursor at a few places of short calls; Ruby's binding of arguments depends on the number of arguments and the order of the kinds of parameters.", "anchors": ["crates/ruby-analysis/src/indexer/analyzer.rs:163-192", "crates/ruby-analysis/src/indexer/analyzer.rs:413-541", "src/query/signature_help.rs:134-380"]}
{"id": "C81", "title": "require and require_relative lead to the file that Ruby loads, and only strings without a file are reported", "statement": "For every document the strings are exactly those of calls of require and require_relative without a receiver or with Kernel and with this string as the only argument, in the order of the text; the string at a cursor is the first of them around it; the range that is marked lies in the string and is the text between two equal quotes. The roots are tried in order, each with the argument as it is and then with .rb; there is no answer exactly when no root has a file. For an argument of plain names, when there is no file of the bare name and none in the project root itself, the answer is the file that Ruby loads from the load path. A configured load path is accepted exactly when it is relative, does not begin with a dot and has no two dots, and then lies inside the project. One diagnostic for each string without a file, in order; the end of the range of a file is behind every place of its text. Shown not to hold without these conditions: a file of the bare name and a file of the project root shadow the one Ruby loads; ./foo is looked up in lib; foo/ leads to foo.rb; foo.RB.rb is not tried; the load path ./src is ignored.", "quantifier": "all documents, cursors, arguments, load paths, dependencies, file systems and sets of known files", "why_tests_cant": "Tests use a handful of temporary directories; the answer depends on which of unboundedly many candidate paths exist and on the shape of the argument.", "anchors": ["src/indexer/require_paths.rs:69-125", "src/indexer/require_paths.rs:130-239", "src/indexer/require_paths.rs:290-404"]}
{"id": "C82", "title": "The call hierarchy and the type hierarchy show every call and every relation, from both sides, and the texts of names lead back to the names", "statement": "For every method of source names the text that a hierarchy item carries is read back as the same method, different methods have different texts, and every text that is read is the text of the result; the same for classes and modules. The names of methods that are accepted are the operators of a list and words with an optional mark. For every engine state the incoming calls have one entry for each caller that is a known method, with exactly the places in it where the method is called, sorted by name, and the outgoing calls likewise, for every order of the map; of two known methods one is among the incoming calls of the other with some places exactly when the other is among its outgoing calls with the same places. The supertypes are exactly the defined targets of inheritance and mixins, in the order prepend, include, superclass, extend, the last mixin first, then the unresolved names, and the file of an edge is told when it is another one; the subtypes are exactly the defined sources, sorted; a class or module is a supertype in a relation exactly when the other is a subtype in the opposite one. Shown not to hold: places of calls in a second file of a method are shown in its first file; calls at the top level are missing; A#x and A.x are one entry; a class reopened with its superclass is listed twice; texts of singleton classes and generated owners are not read back; the methods !, ~ and ` are not accepted.", "quantifier": "all names, engine states, methods, classes and modules, and all orders of hash maps", "why_tests_cant": "Tests look at hierarchies of a few classes from one side; duality and reading back hold between two requests on arbitrary states.", "anchors": ["crates/ruby-analysis/src/engine/hierarchy.rs:14-221", "crates/ruby-analysis/src/engine/hierarchy.rs:262-387", "crates/ruby-analysis/src/core/fully_qualified_name.rs:378-407", "crates/ruby-analysis/src/core/ruby_method.rs:32-90", "crates/ruby-analysis/src/core/ruby_namespace.rs:47-66"]}
{"id": "C83", "title": "The members of a class file are located in Java source at the declaration that fits, and nowhere when none is decided", "statement": "For every class file, syntax tree and limits: a tree is accepted exactly when it has at most so many nodes and none too deep, and otherwise the error names the limit that is passed first in document order. The internal name is read as a package and the names of classes inside each other exactly when it is made of them and no part is empty or a number. The package of the source is what stands between `package` and `;`. The class is the first declaration of a type in document order whose names, with those around it, are the expected ones. Types of parameters are read in order, without white space and type arguments; a type matches one of the descriptor exactly when its last name is the simple name of the other, so that overloads that match one declaration have the same simple names. A method is located at a declaration exactly when, of all declarations that fit by kind, name, `static` and number of parameters, the line of its code, its being alone, or its types decide for it. A field is located exactly when it is declared once. The located members come in the order of the class file and lie inside the class, and their names inside their declarations. Shown not to hold: a class inside a method is taken for a class inside the class; two methods are located at one declaration although the types of one are others; members of enums, constants of interfaces, methods with a written receiver, short constructors of records, overloads with a type variable are not located; the word static in an annotation makes a method static.", "quantifier": "all class files, syntax trees, texts, descriptors and limits", "why_tests_cant": "The tests map two fixtures; which declaration is decided for depends on all declarations of the class together and on nesting of any depth.", "anchors": ["crates/jvm-metadata/src/java_source.rs:73-138", "crates/jvm-metadata/src/java_source.rs:140-245", "crates/jvm-metadata/src/java_source.rs:247-369", "crates/jvm-metadata/src/java_source.rs:371-491"]}
{"id": "C84", "title": "The Ruby declarations made from a class file say what the class file says", "statement": "For every class file: declarations are made exactly when the class has a package and names that are accepted and the descriptors of all fields and of all shown methods can be read. Ruby reads the lines to the end with every scope closed, and what they declare is exactly: the module of the package, the classes around, the class or module with its superclass and interfaces, each static final field or enum constant as a constant with its type, each other field as a reader and a writer, and each shown method in order with its parameters (the last one taking the rest when Java says so), the documented types, the exceptions and the visibility of Java unless it is a method of the class. Every line stands two columns deeper per scope. Whatever names a class file has, the text has exactly the generated lines. A Ruby name tells the classes and the module of the package. The texts of types are read by the YARD reader as the Ruby types of the Java types. Different valid names of parameters stay different, and the documented names are those of the definition. Shown not to hold: two Java classes can have one Ruby name; two parameters can get one name; private constructors and static methods are public; constructors are documented to return nil; an interface around a class is opened as a class; methods named like keywords (`next`) and static final fields in lower case (`System.out`) are missing; private final fields have public writers; class names need not be constants; classes without package or with a dollar in the name have no declarations; the list of exceptions can be empty.", "quantifier": "all class files, names, descriptors, parameters and tables of letters", "why_tests_cant": "The tests compare a few generated lines with contains; that scopes close, visibilities switch right and names stay apart depends on all members together.", "anchors": ["crates/jruby-support/src/names.rs:9-86", "crates/jruby-support/src/signatures.rs:13-90", "crates/jruby-support/src/signatures.rs:92-252", "crates/jruby-support/src/signatures.rs:254-364"]}
{"id": "C85", "title": "Ruby runtimes are recognised from their output and selected by the marker of the project", "statement": "A JRuby version is read exactly when it is two or more numbers below 65536 with dots between them, with or without jruby- before them, and a version that is shown is read back. A series is found exactly for its family; different series have different Ruby compatibilities, in the same order. The version cleaned out of a text is its first run of digits and dots, when that is made of such numbers. JRuby is recognised exactly when its second word is a version and its output reports a Ruby version, which must be that of the series when the series is known; it is supported exactly when the series is known. MRI and TruffleRuby are recognised exactly when their second words contain versions (and TruffleRuby names the Ruby it is like or reports one). A marker is read exactly when it is, trimmed, a version of at least two numbers after jruby-, truffleruby-, ruby- or nothing. It selects a runtime exactly when that is the only candidate of that implementation and version (on the path, if any candidate is there), nothing exactly for `system` or without candidates, and is ambiguous exactly otherwise, naming the executables in the order of paths; the order of discovery does not matter. Every recognised runtime is selected by a marker. `.ruby-version` decides when it exists, otherwise the second word of the first `ruby` line of `.tool-versions`. Shown not to hold: a preview of MRI is recognised as the release and selected for it; snapshots of JRuby are not recognised; markers with leading zeros or fewer numbers do not select an equal version; a comment in .ruby-version makes it invalid, and an empty one hides .tool-versions.", "quantifier": "all texts, outputs, markers, lists of runtimes, files and tables of white space", "why_tests_cant": "The tests run a few well-formed outputs and markers; exactness needs all texts, and independence of the order needs all lists of runtimes.", "anchors": ["crates/jruby-support/src/version.rs:9-51", "crates/jruby-support/src/version.rs:91-140", "src/runtime/catalog.rs:179-280", "src/runtime/catalog.rs:614-755"]}
{"id": "C86", "title": "The report of check has exactly what was found, in one order, whatever order it was found in", "statement": "For every root, selection and list of projects: a report has exactly the diagnostics of the parser for the checked project files and the diagnostics of the engine (of the selected file only, when one is selected), each once, in a linear order by path, range, severity, code and message; and exactly the types of the checked files, each once, in a linear order. The report does not depend on the order in which projects, files and facts are visited. The summary counts the diagnostics by severity and adds up to their number, and the check fails exactly when an error or a warning is reported. A file under the root is shown relative to it, any other as it is, and different files are shown differently. The root of a single file is the nearest directory above with a Gemfile, or its own. A check of one file fails unless exactly that one file is checked, and everything in the report is about it. Every method of a checked file has a type with its exact outcome, every known type of anything else is shown, and only returns of methods and expressions are shown as unknown. Lines and columns count from one. Shown not to hold: diagnostics of the engine for files that are not checked are in the report of a directory and make it fail; errors of syntax in signature files are missing; one expression can be shown both with a type and as unknown.", "quantifier": "all roots, selections, projects, files, facts and orders of visiting", "why_tests_cant": "Tests check a few small projects; that no order of discovery changes the report needs all permutations of all inputs.", "anchors": ["src/check.rs:27-145", "src/check.rs:304-378", "src/check.rs:380-511", "src/check.rs:513-619", "src/check.rs:621-704"]}
{"id": "C87", "title": "A Java class name stands for the first class on the class path, every other one is reported, and stored metadata are used only for exactly the identity asked for", "statement": "For every class path and list of metadata of artifacts: a catalog is made exactly when every artifact has one product with its content and kind, in order. A name stands for its first class on the class path and is in the catalog once. Every other class, and nothing else, is reported as a duplicate with the artifact of the class that is used and its own, in order of name, winner and shadowed; classes and duplicates together are as many as the classes of the artifacts. No artifact is said to shadow itself when artifacts have different places and no class twice. Artifacts added at the end change no class that was found. When the hash has no collisions the identity of stored metadata tells the versions of the program, the content and kind of the artifact, the version of Java and every limit; stored metadata are used exactly when schema and all parts of the identity are the same, and are what was stored; metadata are made from a file only when its bytes are those the artifact stands for.", "quantifier": "all class paths, artifacts, classes, keys, limits and stored records", "why_tests_cant": "Tests use two archives with one class; precedence and accounting must hold for all lists, and separation of identities for all pairs of keys.", "anchors": ["src/runtime/jruby/java_catalog.rs:118-252", "src/runtime/jruby/java_catalog.rs:307-348", "src/runtime/jruby/java_catalog.rs:387-500"]}
{"id": "C88", "title": "Counts of inference add up: every method is counted once over all files, and merging does not depend on order", "statement": "For all telemetry: merging adds counts and keeps the larger peaks, fails exactly when a count does not fit 64 bits, and neither order nor grouping matters, not even for failing; the total of files is the sum of each count. Observing returns counts each as proven or as unknown with its reason. Observing a type counts exactly the shapes in it with their fields, and the unions with several shapes directly in them with their number; the peaks are the largest. Refreshing a file replaces exactly the counts of shapes and is idempotent. For every history of replacing files, solving methods and solving constants: after solving, the files together count every method with an equation exactly once, and in every file proven and unknown returns add up, with a reason for each unknown one; without constants, what each file counts of shapes is what is in its facts. Shown not to hold: a file's own counts are not of its own methods (the first file counts all, so the report of one file counts the methods of others or none); the number of aliases of a file stays the old one when the file changes and its methods do not; types changed by solving constants are not counted again.", "quantifier": "all telemetry, outcomes, types, files, solvers and histories", "why_tests_cant": "Tests check a few counts in one or two files; that counts stay exact needs all histories of edits and solves.", "anchors": ["crates/ruby-analysis/src/core/type_inference_outcome.rs:237-262", "crates/ruby-analysis/src/core/type_inference_outcome.rs:330-585", "crates/ruby-analysis/src/engine/state.rs:2278-2422", "crates/ruby-analysis/src/engine/state.rs:2557-2694"]}
{"id": "C89", "title": "The version of Ruby of a workspace is what the first source says that says something", "statement": "For all texts: a version is two numbers below 256 with a dot between them, and what is behind a second dot does not matter. A marker says a version exactly when it is a version, perhaps with `ruby-` before it, or `jruby-` or `truffleruby-` with a version for which the table of the engine has an entry. The output of `ruby --version` says, for MRI, the first word that is a version; for JRuby, the version in the first parentheses; for TruffleRuby, the first version behind `like ruby`; and when these are missing the entry for the first version in the output that has one. A Gemfile says what the first line says that begins with `ruby` and has a marker, perhaps in quotes, as its next word. The sources are the .ruby-version file, the Gemfile, rbenv's file and command, rvm's file and command, and the system's Ruby: the version is what the first one says that says something, and there is none exactly when none says one. A selected runtime goes first without a fallback, then the setting, then the detection. Marker and output of every supported series of JRuby agree. Shown not to hold: the requirement `~> 3.0`, which a comment names as supported, is read; the engine in a Gemfile is used; an engine in a .rvmrc file is recognised (its number is taken for that of Ruby); newer engines have the same version from a marker and from their output.", "quantifier": "all texts, outputs, files, workspaces and settings", "why_tests_cant": "Tests read a handful of versions; that a text says a version, and that nothing before it does, is about all texts.", "anchors": ["src/indexer/version/ruby_version.rs:44-175", "src/indexer/version/ruby_version.rs:198-220", "src/indexer/version/version_detector.rs:48-268", "src/config.rs:277-290", "src/indexer/coordinator.rs:1526-1552", "src/indexer/coordinator.rs:3037-3052"]}
{"id": "C90", "title": "Settings for runtimes are accepted exactly when they are consistent, and each project gets its own", "statement": "For all settings: the description of a runtime is accepted exactly when its executable and its Java home, if it has one, are absolute, its Ruby begins with two numbers below 65536, and, for JRuby, the engine is a version of a supported series whose family and Ruby are those of the description; for MRI, the family is the Ruby and the engine begins with the same numbers; for TruffleRuby, the engine begins with two numbers. A list of settings is accepted exactly when every root is not blank, no two roots are the same text and every description is accepted. A project gets what the first entry for its root selects, where slashes at the end, double slashes and `/./` make no difference and different names do; without an entry it gets what the older setting says when that begins with two numbers, and else the automatic choice. Every runtime that is found and supported is accepted when it is selected. An accepted JRuby gives the Ruby of its series as the version of Ruby; an accepted MRI gives that of its engine when the numbers are below 256. A pattern for JRuby's paths is accepted exactly when it is not empty, does not begin with a slash and has no part `..`, and then never leads out of where it starts; a project gets the patterns of the first entry for its root, or none. Shown not to hold: two entries for one root are refused (when it is written in two ways, the second is accepted and never used); every accepted description gives a version of Ruby; the family of an accepted TruffleRuby fits its engine.", "quantifier": "all settings, roots, descriptions, outputs and patterns", "why_tests_cant": "Tests accept and refuse a few descriptions; exactly which are accepted, and that all runtimes that can be found are, is about all of them.", "anchors": ["src/config/runtime.rs:50-60", "src/config/runtime.rs:84-128", "src/config/runtime.rs:131-191", "src/config/runtime.rs:208-213", "src/config/runtime.rs:231-260", "src/config/runtime.rs:269-283"]}
{"id": "C91", "title": "The projects of a workspace are the nearest directories with a Gemfile, and never one inside another", "statement": "For all trees of directories: with a Gemfile at the top the workspace is the only project; otherwise the projects are exactly the directories that hold the first Gemfile on a way down which avoids links and the directories that are left out, and the workspace itself when there is none. They are in order, each once, there is at least one, and no project is inside another one. For all configured roots and all file systems: they are used exactly when each is a relative path of names without `..` that leads to a directory inside the workspace and no two different places are inside one another; the result then has each place once, in order. That only neighbours are compared after sorting loses nothing. Without configured roots the projects are discovered.", "quantifier": "all trees, workspaces, file systems and configured roots", "why_tests_cant": "Tests look at trees with a few directories and at one pair of roots; that comparing neighbours finds every overlap depends on the order of all paths.", "anchors": ["src/indexer/project_roots.rs:6-16", "src/indexer/project_roots.rs:24-37", "src/indexer/project_roots.rs:39-89", "src/indexer/project_roots.rs:91-129"]}
