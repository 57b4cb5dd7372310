{
 "C01": {"status": "proved", "note": "All reachable states of the scheduler state machine, any limit."},
 "C02": {"status": "proved", "note": "Grant order stated against the history of grants, not the scheduler's own counter."},
 "C03": {"status": "proved", "note": "Safety of the wakeup protocol plus progress: a blocked sleeping task always has a pending notification or is not grantable."},
 "C04": {"status": "proved", "note": "All reachable states of the governor, any policy."},
 "C05": {"status": "partial", "note": "The bypass bound as stated is false of the code: c05_unbounded_bypass builds, for every n, an execution with n bypasses of one background request. What holds is c05_no_two_bypasses_in_a_row_partial; the navigation half is proved in full."},
 "C06": {"status": "partial", "note": "Work conservation as stated is false: c06_not_work_conserving is the witness. The release-wakes-everyone and never-idle parts hold."},
 "C07": {"status": "proved", "note": "All interleavings of the three caches; result sharing, single completion, no lost wake-up, deadlock freedom and termination."},
 "C08": {"status": "proved", "note": "Order of creation is relative to the entries completed when an eviction iteration begins (cells may complete while it scans)."},
 "C09": {"status": "proved", "note": "producers = misses once every created computation has started; the equation in the theorem counts those not yet started."},
 "C10": {"status": "proved", "note": "Controller of navigation_demand.rs as a state machine; any number of callers, requests and generations. Key normalization check modelled separately (C41)."},
 "C11": {"status": "proved", "note": "Tickets with the watch channel (revision, seen value) and the notification sent after the lock is released; liveness as no lost wake-up plus a path to the answer by the pending notification and the ticket's own steps."},
 "C12": {"status": "proved", "note": "All methods of ProjectIndexingStatus; also two counterexamples to what the code's messages promise (progress can go back through a call without counters; transition to Failed leaves no reason)."},
 "C13": {"status": "proved", "note": "Tokens of all runs as a list; anybody may cancel a token at any time."},
 "C14": {"status": "proved", "note": "All histories of add, replace and remove; arena ids are unbounded (u32 overflow not modelled)."},
 "C15": {"status": "proved", "note": "All histories and all iteration orders of the internal hash sets; arena ids are unbounded."},
 "C16": {"status": "proved", "note": "Against a specification over the set of edges only; independence of history follows from uniqueness of the specified answer."},
 "C17": {"status": "proved", "note": "All histories of add, replace, remove and retry; arena ids are unbounded."},
 "C18": {"status": "proved", "note": "All histories; the once-only and ordering parts hold unless references were added since the last sort (c18_unsorted_repeats shows that this is needed)."},
 "C19": {"status": "proved", "note": "For every previously ordered index; a stale file is refused by a panic."},
 "C20": {"status": "proved", "note": "All histories including in-place retyping; agreement is on type and provenance, as in the code. Interning is modelled as the identity."},
 "C21": {"status": "proved", "note": "For all finite lists of types. Grouping is one level, as in the code: c21_two_levels_nest shows that a union of unions of unions nests; c21_union_with_raw that equal non-canonical types are returned as they are."},
 "C22": {"status": "partial", "note": "Literal-free, canonical and idempotent whenever widening returns. It always returns for types without shapes, and for built shapes whose field types have no empty argument list and at most eight shapes per list of alternatives (c22_widening_total_partial). False in general: c22_empty_argument_panics is a shape the constructor accepts and widening panics on."},
 "C23": {"status": "proved", "note": "Success of the constructor is characterised exactly; lookup is the standard library's binary search."},
 "C24": {"status": "proved", "note": "Unicode classification and trimming are parameters; the theorems assume only that they reject the separators used in the encoding. usize is 64 bits."},
 "C25": {"status": "proved", "note": "SHA-256 and zstd are parameters, assumed to give 32-byte digests and to be lossless on what the encoder wrote; usize is 64 bits. Acceptance is characterised exactly, including every torn or extended file."},
 "C26": {"status": "proved", "note": "Key binding is exact on the 92-byte header; the only appeal to the digest is its length."},
 "C27": {"status": "proved", "note": "Any number of processes and threads, no locks assumed, process crash and power loss at every step with arbitrary subsets of pending directory changes. Trusted: POSIX rename/unlink/fsync semantics as modelled. Not modelled: durability of a newly created shard directory itself, and Windows, where the directory sync is a no-op; both can only lose a product, not expose a partial one."},
 "C28": {"status": "proved", "note": "SHA-256 is a parameter with 32-byte digests; collision freedom is an explicit hypothesis of c28_identity. Package name, version and physical path are not part of the hashed identity in the code. c28_not_normalized shows that the logical path check accepts a//b and a/./b."},
 "C29": {"status": "proved", "note": "Both directions, the document's and the engine's copies."},
 "C30": {"status": "partial", "note": "False at the end of a text without trailing newline: c30_false_at_unterminated_end gives the reported line for every such text. Everywhere else it holds (c30_line_partial)."},
 "C31": {"status": "proved", "note": "All templates; a relational grammar of ERB tags is the specification."},
 "C32": {"status": "proved", "note": "For every finite system of equations whose proven bases have no unknown member: exactly the methods with an equation get an outcome; a proven type is the union of the proven bases and of the outcomes of all dependencies, all of them proven; with canonical bases it is the least solution, an unknown outcome has a cause (missing equation, unknown base, no base in reach, too many shapes, or a cycle of at least eight methods), and types do not depend on the order of the equations. c32_ring shows that a cycle of eight methods is given up although it has a solution; c32_unknown_member_panics shows the panic outside the precondition. The reasons of unknown outcomes are not specified."},
 "C33": {"status": "proved", "note": "Method lookup chains: every chain is the list of namespaces reachable by the links that are followed, in Ruby's order (prepends first, later includes first, then the class, then the superclass), never loops, and is flagged in doubt exactly when an unresolved or conflicting link can matter. Relative to the links in the graph store."},
 "C34": {"status": "proved", "note": "Lookup through every lexical scope; ancestors are an arbitrary function."},
 "C35": {"status": "partial", "note": "False in general: a resolved link is never reconsidered (c35_nearer_definition, c35_removed_definition). Proved: no history panics; the links are exactly those the current facts stand for whenever intermediate resolutions agree with the final facts, in particular with one resolution at the end; two such histories with the same facts agree; resolving twice changes nothing."},
 "C36": {"status": "proved", "note": "All executions of the store. Content identity is up to what the code compares: hash, length and line index."},
 "C37": {"status": "proved", "note": "For all byte strings against a grammar given as a printer; recursion depth of the parser is not modelled."},
 "C38": {"status": "partial", "note": "Every reported implementor really is one; the search is exact when nothing that is mixed in has a superclass link. Otherwise descendants of a mixed-in class are missed (c38_mixed_in_class_missed)."},
 "C39": {"status": "proved", "note": "For all range lists and cursors."},
 "C40": {"status": "partial", "note": "Lookup, visibility, owner and type parts are proved for all scope trees; the reference set is proved only without shadowing and block assignments (c40_references_partial), and false otherwise (c40_shadowed_outer_reported, c40_block_assignment_missed)."},
 "C41": {"status": "proved", "note": "Unicode tables are parameters; the facts about U+0130 and U+0307 are hypotheses of c41_dotted_i_panics."},
 "C42": {"status": "proved", "note": "Composition of the status and controller models with the two-step callers of server.rs."},
 "C43": {"status": "partial", "note": "c43_sound_partial needs two restrictions on shapes (no optional field in an exact shape, rest key types in which no class or module other than String and Symbol has string or symbol instances, and no literal types as rest keys). Without them the property is false: c43_exact_optional_unsound and c43_rest_key_unsound are counterexamples built by try_new. Frozen shapes are not told apart (c43_stability_ignored)."},
 "C44": {"status": "proved", "note": "flock is modelled as ideal shared and exclusive locks on inodes that are released when their process ends; the 180 s time limit appears as the abort step."},
 "C45": {"status": "proved", "note": "The postcard encoding and the conversion of a snapshot into a template are outside the model."},
 "C46": {"status": "partial", "note": "False in general: a resolution adds links without clearing the caches (c46_stale). Proved when no lookup happens between a replacement and the next resolution."},
 "C47": {"status": "partial", "note": "Proved for all files without keyword parameters, block-local variables and outer local variables in a class's superclass, class << object or definition receiver; false with them (c47_superclass_missed, c47_keyword_missed)."},
 "C48": {"status": "partial", "note": "Divergence and unreachable statements are proved for every tree and every run in which no StopIteration is raised and Kernel's terminating methods are not redefined (counterexamples c48_stop_iteration, c48_own_method); exit sets for code whose leaving statements come last (counterexamples c48_earlier_exit, c48_loop_return); blocks up to returns from nested blocks (c48_nested_return)."},
 "C49": {"status": "partial", "note": "Unknown keywords, absence of panics and completeness for written-out calls are proved. Wrong numbers are proved for definitions without destructuring parameters (counterexample c49_destructuring) in Ruby 3, and in Ruby 2 for calls without keywords (c49_ruby2_keywords); missing keywords for calls without computed keys (c49_computed_key)."},
 "C50": {"status": "partial", "note": "The distance and the nearest keyword are proved for all names; the nearest method for names of one-byte characters, because the length filter counts bytes (counterexample c50_wide_character_missed)."},
 "C51": {"status": "proved", "note": "proved for all texts and tokens, as an equivalence with the order of the tokens, and for all code written in the order of the visit; for four constructs that are not, the failure is proved"},
 "C52": {"status": "partial", "note": "Proved for the code described by Supported (Spec/FlowTypes): loops whose assignments have the same type in every round and without break or next, tests of variables that are not assigned in the branch, no operator assignments, no assignments in arguments. For the other constructs counterexamples are proven. Shapes, blocks and recursive methods are not modelled."},
 "C53": {"status": "proved", "note": "proved for all code of the modelled form that avoids the two causes of panics, which are themselves proved to panic; loops, rescue and blocks are not modelled here"},
 "C54": {"status": "proved", "note": "proved for all code of the modelled form under the stated conditions (Safe, Regular, Tame); the failures outside of them are proved as counterexamples; loops, rescue and blocks are not modelled here"},
 "C55": {"status": "proved", "note": "proved for all bodies that satisfy Flat (hashes contain no hashes, mutations and conditions concern variables with at most one known hash, no loops, rescue, blocks or arrays) and all executions of Spec/FlowShapesHeap; calls whose type is a shape are assumed to return new hashes"},
 "C56": {"status": "proved", "note": "for the code of the modelled syntax; the forms for which it is false are excluded by Plain and Tame and shown as counterexamples"},
 "C57": {"status": "proved", "note": "over the index of plain programs with ancestor chains as parameter; conditions for calls on other objects are stated and shown to be needed"},
 "C58": {"status": "proved", "note": "for all byte sequences and limits; three counterexamples are theorems ending in _fails"},
 "C59": {"status": "proved", "note": "parse is proved equivalent to the declarative specification for every ZIP reader; the deviations from the JAR specification are counterexample theorems"},
 "C60": {"status": "proved", "note": "c60_exact, c60_split, c60_tag, c60_union for hashes with braces on the outside or last; c60_nested and c60_covers for any nesting in braces; c60_fuel and c60_names for all texts; c60_comma_fails, c60_wrong_fails, c60_values_fails, c60_nested_fails, c60_void_fails and c60_case_fails are what does not hold"},
 "C61": {"status": "proved", "note": "Comment block, tags, ranges and the type at a position, with counterexamples for tags inside descriptions, block tags, modifiers, blank lines, bytes and braces"},
 "C62": {"status": "proved", "note": "Chains, unresolved dependencies and metaclasses are parameters with one hypothesis, which c62_receiver_in_chain proves for the engine's chains. The theorems ending in _fails show where resolving goes wrong."},
 "C63": {"status": "proved", "note": "Acceptance, moving, saving, the round trip and arbitrary snapshots, with counterexamples for deep types, generated owners in signatures and bodies, and empty parameter names"},
 "C64": {"status": "proved", "note": "Exactness and soundness of the types of calls with a block; the conditions of soundness are shown necessary by counterexamples."},
 "C65": {"status": "proved", "note": "Sound for types whose rest keys are plain; c65_rest_key_fails shows the reads are wrong for a rest key like Object."},
 "C66": {"status": "proved", "note": "Sound for lambdas, and for procs that are not called with a single array; c66_proc_array_fails shows the remaining case is wrong. Resolvers are assumed right."},
 "C67": {"status": "proved", "note": "proved for neat literals; each condition is needed, with counterexample theorems: early return and next, assignments in conditions, interpolations and defaults, safe navigation, block-local variables, dropped branches"},
 "C68": {"status": "partial", "note": "Proved: conversion of RBS types sound and exact under stated conditions, names, records, type arguments, index of declarations; c68_return_partial is for methods with one signature. Missing: the original claim is false for several signatures, tuples, method type parameters, void, reopened classes, relative names (c68_*_fails)."},
 "C69": {"status": "partial", "note": "Sound if the project and RBS are right about the calls and RBS is asked the right question; counterexamples for classes found by the last name of their path, own new, arrays and hashes changed by the project, several element types"},
 "C70": {"status": "proved", "note": "Order, bindings, completeness, lists and catalogues, under the conditions of the statement; counterexamples show that they are needed."},
 "C71": {"status": "proved", "note": "End-to-end soundness of calls with a block under the stated conditions on the written types (Neat); the statement lists where the conditions fail, with counterexample theorems."},
 "C72": {"status": "proved", "note": "The limits, the order of eviction, the bound for all interleavings, the single process and the recovery are proved; what does not hold is shown by counterexamples."},
 "C73": {"status": "proved", "note": "Characterises exactly when whole-document edits are right; positions of linters are right as byte columns, which is not what RuboCop reports; wrong insertions of end are counterexamples."},
 "C74": {"status": "proved", "note": "For executions in which nothing without the lock overlaps the storing of a new text; c74_*_fails show what happens otherwise."},
 "C75": {"status": "proved", "note": "For files without duplicates, which is what the walk finds; c75_*_fails show what does not hold."},
 "C76": {"status": "proved", "note": "All declarations once and in their places, ranges nested, visibilities for plain modifiers, for all syntax trees; the reversed order of children and the wrong visibilities are shown as counterexamples."},
 "C77": {"status": "proved", "note": "The matching, ranking, limits and merging of the search for symbols; four expectations are refuted by counterexamples."},
 "C78": {"status": "proved", "note": "Tree, sections, mixins and includers for all graphs and iteration orders; four expectations are refuted by counterexamples."},
 "C79": {"status": "proved", "note": "Modules, usages, classes, lenses and folding ranges characterised for all documents and graphs; the parts that do not hold have counterexamples."},
 "C80": {"status": "proved", "note": "Call, argument, keyword, parameter, labels and answer characterised for all inputs; the parts that do not hold have counterexamples."},
 "C81": {"status": "proved", "note": "strings, cursor, ranges, roots, load paths, diagnostics and agreement with Ruby's require under stated conditions; counterexamples for the conditions"},
 "C82": {"status": "proved", "note": "texts of names, calls from both sides, supertypes and subtypes from both sides, orders; counterexamples for what does not hold"},
 "C83": {"status": "proved", "note": "The tree is the input; which of several declarations is meant is proved from the whole list of declarations. Counterexamples show classes, members and words that are mistaken or not located."},
 "C84": {"status": "proved", "note": "Reading of the generated lines, totality, layout, no smuggled lines, names, types and parameters for all class files; the exceptions are counterexample theorems."},
 "C85": {"status": "proved", "note": "Recognising and selecting runtimes for all texts and lists of runtimes; the cases that do not hold are shown by c85_*_fails."},
 "C86": {"status": "proved", "note": "The part of check behind the indexing, for all inputs; the cases that do not hold are shown by c86_*_fails."},
 "C87": {"status": "proved", "note": "Classes of a class path, duplicates and identities of stored metadata; the hash is taken to have no collisions where said."},
 "C88": {"status": "proved", "note": "Counts of inference for all histories of replacing and solving; three natural statements about single files shown not to hold."},
 "C89": {"status": "proved", "note": "What markers, outputs, Gemfiles and the other sources say, exactly, for all texts, and the precedence of the sources; four expectations are shown not to hold"},
 "C90": {"status": "proved", "note": "Paths are those of Unix; what does not hold of duplicate roots, bytes and TruffleRuby is stated as counterexamples."},
 "C91": {"status": "proved", "note": "The file system is a tree or, for configured roots, two parameters."}
}
