{"id": "C01", "title": "Firing a transition is exact and never goes negative", "statement": "For an accepting Petri net without parallel arcs, execute(t, net, m) returns None exactly when t is not enabled in m, and otherwise returns a new marking in which every place p holds m[p] - w(p,t) + w(t,p) tokens; the result never stores a zero or negative count, so markings reached by firing compare equal exactly when they agree on every place. The input marking is not modified.", "quantifier": "every Petri net without parallel input arcs, every transition, every marking with positive stored counts", "why_tests_cant": "Nets, arc weights and markings are unbounded; the representation invariant (no zero entries) must hold along every firing history for Marking.__eq__ to be usable in closed sets.", "anchors": ["pm4py/objects/petri_net/semantics.py: is_enabled, execute, weak_execute, enabled_transitions", "pm4py/objects/petri_net/obj.py: Marking"]}
{"id": "C02", "title": "Marking algebra", "statement": "Marking comparison and arithmetic form the pointwise order and group action users expect: on markings with positive stored counts, == is an equivalence that coincides with pointwise equality, <= is a partial order that coincides with pointwise <=, (m1 + m2) - m2 == m1, + is commutative and associative, and equal markings have equal hashes.", "quantifier": "all markings with positive counts", "why_tests_cant": "Quantifies over all markings; alignments and reachability rely on it for every visited state.", "anchors": ["pm4py/objects/petri_net/obj.py: Marking.__eq__, __le__, __add__, __sub__, __hash__"]}
{"id": "C03", "title": "The reachability graph is exactly the set of reachable markings", "statement": "When construct_reachability_graph finishes (no timeout), its states are exactly the markings reachable from the initial marking by firing sequences, and its arcs are exactly the firings (m, t, m') between them; and it finishes on every net whose reachable set is finite.", "quantifier": "every Petri net, every initial marking with finitely many reachable markings, every iteration order of the sets involved", "why_tests_cant": "Requires an invariant over all iterations of a worklist on arbitrary nets.", "anchors": ["pm4py/objects/petri_net/utils/reachability_graph.py: marking_flow_petri, construct_reachability_graph"]}
{"id": "C04", "title": "Incidence matrix satisfies the state equation", "statement": "For every firing sequence from m to m' in a net whose arcs all have weight 1, m' = m + C·x where C is the matrix returned by incidence_matrix.construct and x is the Parikh vector of the sequence; this fails for nets with arc weights other than 1 because the matrix ignores weights.", "quantifier": "every net, every firing sequence of any length", "why_tests_cant": "All firing sequences; the A* heuristic's admissibility depends on it for each visited marking.", "anchors": ["pm4py/objects/petri_net/utils/incidence_matrix.py: IncidenceMatrix"]}
{"id": "C05", "title": "Runs of the synchronous product are exactly alignments", "statement": "For a trace and an accepting net with unit arc weights, the firing sequences of the synchronous product from its initial to its final marking correspond one-to-one to pairs of (a full replay of the trace, a full run of the net) synchronised on equal labels: dropping the '>>' symbols, the first components of the labels spell the trace and the second components spell a word of the net.", "quantifier": "all traces and all unit-weight nets", "why_tests_cant": "Every run of every product; a wrong boundary or lost arc shows up only on particular nets (and weights other than 1 are in fact lost).", "anchors": ["pm4py/objects/petri_net/utils/synchronous_product.py: construct, construct_cost_aware", "pm4py/objects/petri_net/utils/petri_utils.py: construct_trace_net"]}
{"id": "C06", "title": "Dijkstra alignments are optimal", "statement": "When the Dijkstra (no heuristics) alignment returns an alignment, it is a valid run of the synchronous product from initial to final marking, its reported cost is the sum of the costs of its moves, and no other complete run has a smaller cost; if the search ends without a result, no complete run exists.", "quantifier": "all synchronous products, all non-negative cost functions, all tie-breaking orders of the priority queue", "why_tests_cant": "Optimality is a statement over all (infinitely many) runs of all products.", "anchors": ["pm4py/algo/conformance/alignments/petri_net/variants/dijkstra_no_heuristics.py: __search", "pm4py/objects/petri_net/utils/align_utils.py: DijkstraSearchTuple, __reconstruct_alignment, add_markings"]}
{"id": "C07", "title": "Inductive Miner guarantees replay fitness", "statement": "discover_process_tree_inductive with noise threshold 0 returns a process tree whose language contains every trace of the event log it was discovered from.", "quantifier": "all event logs (any number of traces, any alphabet, including empty traces)", "why_tests_cant": "The fitness guarantee ranges over all logs and all recursion patterns of cuts and fall-throughs.", "anchors": ["pm4py/algo/discovery/inductive/variants/im.py: IMUVCL.apply", "pm4py/algo/discovery/inductive/cuts/*.py", "pm4py/algo/discovery/inductive/fall_through/*.py", "pm4py/algo/discovery/inductive/base_case/*.py"]}
{"id": "C08", "title": "Inductive Miner terminates", "statement": "discover_process_tree_inductive with noise threshold 0 terminates on every event log: each recursive call is made on a strictly smaller log.", "quantifier": "all event logs", "why_tests_cant": "Termination for every input cannot be tested; a cut that returns a single group would recurse forever.", "anchors": ["pm4py/algo/discovery/inductive/variants/abc.py: InductiveMinerFramework.apply, _recurse", "pm4py/algo/discovery/inductive/cuts/sequence.py: StrictSequenceCut.holds"]}
{"id": "C09", "title": "Inductive Miner labels are exactly the activities, each once", "statement": "In the process tree discovered by the inductive miner (noise 0) every activity of the log is the label of exactly one leaf, and there are no other labels (all other leaves are silent).", "quantifier": "all event logs", "why_tests_cant": "All logs.", "anchors": ["pm4py/algo/discovery/inductive/variants/im.py", "pm4py/algo/discovery/inductive/fall_through/*.py"]}
{"id": "C10", "title": "Process tree folding preserves the language", "statement": "fold and reduce_tau_leafs return a process tree with the same set of accepted traces, for trees built from ->, X, +, * (with at least two children for loops).", "quantifier": "all process trees of any depth and width", "why_tests_cant": "Language equality is over infinitely many traces and all trees; the implementation mutates lists while iterating over them.", "anchors": ["pm4py/objects/process_tree/utils/generic.py: fold, _fold, reduce_tau_leafs"]}
{"id": "C11", "title": "structurally_language_equal is sound", "statement": "If structurally_language_equal(t1, t2) returns True then t1 and t2 accept the same traces.", "quantifier": "all pairs of process trees", "why_tests_cant": "All trees, infinite languages.", "anchors": ["pm4py/objects/process_tree/utils/generic.py: structurally_language_equal"]}
{"id": "C12", "title": "Binarisation preserves the language", "statement": "process_tree_to_binary_process_tree returns a tree in which every node has at most two children and that accepts the same traces as the input, for trees over ->, X, +, *, O. For the interleaving operator this fails.", "quantifier": "all process trees", "why_tests_cant": "All trees, infinite languages.", "anchors": ["pm4py/objects/process_tree/utils/generic.py: process_tree_to_binary_process_tree"]}
{"id": "C13", "title": "Process tree printing and parsing round-trip", "statement": "parse_process_tree(str(tree)) is equal to tree for every tree whose root is an operator, whose operators have at least one child and are not the partial-order operator, and whose labels do not contain a quote, carriage return or newline.", "quantifier": "all process trees of that form", "why_tests_cant": "All label strings and tree shapes; the parser is stateful (depth cache) and strips blanks on the remaining string.", "anchors": ["pm4py/objects/process_tree/utils/generic.py: parse, parse_recursive", "pm4py/objects/process_tree/obj.py: ProcessTree.to_string, __eq__"]}
{"id": "C14", "title": "Process tree to Petri net conversion preserves the language", "statement": "The accepting Petri net returned by converting a process tree accepts exactly the traces of the tree: its firing sequences (with the library's execute) from the initial to the final marking have exactly the words of the tree as visible labels, whatever order the sets of the net are iterated in. The tree may use all six operators (->, X, +, *, O, <>); loops and ORs need at least two children (for a one-child loop the claim fails).", "quantifier": "all process trees over the six operators whose inner nodes have children (loops and ORs at least two), all iteration orders, all firing sequences of the net", "why_tests_cant": "Infinite languages, unbounded trees; soundness bugs appear in nested loops/concurrency only.", "anchors": ["pm4py/objects/conversion/process_tree/variants/to_petri_net.py: apply, recursively_add_tree", "pm4py/objects/petri_net/utils/reduction.py: apply_simple_reduction"]}
{"id": "C15", "title": "Silent-transition reduction preserves the language", "statement": "reduce_single_entry_transitions, reduce_single_exit_transitions and apply_simple_reduction terminate, never remove a visible transition, and keep the set of visible traces between two markings that have no token on a place with exactly one incoming and one outgoing arc; with the library's execute, provided that neither net has two arcs between the same place and transition. Both provisos are needed.", "quantifier": "all unit-weight nets, all pairs of markings meeting the proviso, all iteration orders of the transition set", "why_tests_cant": "All nets, all firing sequences.", "anchors": ["pm4py/objects/petri_net/utils/reduction.py: reduce_single_entry_transitions, reduce_single_exit_transitions"]}
{"id": "C16", "title": "Log skeleton fits its own log", "statement": "With noise threshold 0 every trace of a log conforms to the equivalence, never-together, directly-follows and activity-frequency constraints discovered from that log. (For always-after and always-before the code violates this: the counts are over pairs of positions.)", "quantifier": "all event logs", "why_tests_cant": "Counting arguments over all logs; the failing always-after case needs a repeated activity in another case.", "anchors": ["pm4py/algo/discovery/log_skeleton/variants/classic.py", "pm4py/algo/discovery/log_skeleton/trace_skel.py", "pm4py/algo/conformance/log_skeleton/variants/classic.py: apply_actlist"]}
{"id": "C17", "title": "Directly-follows graph counts", "statement": "discover_dfg counts exactly: the weight of (a,b) is the number of positions in all traces where a is immediately followed by b; for each activity, occurrences = outgoing arc weights + ends = incoming arc weights + starts; the result does not depend on the order of the traces; variant-compressed logs give the same DFG.", "quantifier": "all event logs", "why_tests_cant": "All logs and orders.", "anchors": ["pm4py/algo/discovery/dfg/variants/native.py", "pm4py/util/compression/util.py: discover_dfg, discover_dfg_uvcl", "pm4py/objects/dfg/util.py: get_vertex_frequencies"]}
{"id": "C18", "title": "Streaming DFG discovery equals batch discovery", "statement": "After any sequence of events has been received, the result of the streaming DFG algorithm (dfg, activities, start activities, end activities) equals the batch DFG of the log obtained by grouping those events by case in arrival order, whatever the interleaving of cases.", "quantifier": "all event streams and interleavings of cases", "why_tests_cant": "All interleavings of any number of cases.", "anchors": ["pm4py/streaming/algo/discovery/dfg/variants/frequency.py: StreamingDfgDiscovery._process, _current_result"]}
{"id": "C19", "title": "Footprints of logs and footprints conformance", "statement": "The footprints of a log are exactly its directly-follows pairs, split into sequence (one direction only) and parallel (both directions), with its start/end activities, activities and shortest trace; a log conforms to its own footprints in strict and non-strict mode; the violations of one log against another are exactly the pairs missing there; conformance of a trace with a process tree (operators other than OR and interleaving, binary loops) is exactly a comparison with the tree's language, so accepted traces are never reported; a log fits the footprints of the tree the inductive miner discovers from it if the loops of that tree are binary. Refuted: for ternary loops, which the miner produces, a perfectly fitting log is reported; and the empty log is reported unfit.", "quantifier": "all event logs, all process trees, all traces", "why_tests_cant": "Unbounded logs, trees and languages.", "anchors": ["pm4py/algo/discovery/footprints/log/variants/entire_event_log.py", "pm4py/algo/discovery/footprints/log/variants/trace_by_trace.py", "pm4py/algo/discovery/causal/variants/alpha.py", "pm4py/algo/conformance/footprints/variants/log_model.py", "pm4py/algo/conformance/footprints/variants/log_extensive.py", "pm4py/algo/conformance/footprints/variants/trace_extensive.py"]}
{"id": "C20", "title": "Process tree footprints are exact", "statement": "For every process tree without OR and interleaving whose loops have two children, the footprints computed from the tree are exactly those of its language: start and end activities, activities, skippability, sequence and parallel pairs, always-happening activities and the length of the shortest trace. Refuted for loops with three children (pairs between the redo branches through an empty do part are missed) and for OR (it is treated as parallel: always-happening activities and skippability are wrong).", "quantifier": "all process trees and all traces they accept", "why_tests_cant": "Infinite languages.", "anchors": ["pm4py/algo/discovery/footprints/tree/variants/bottomup.py"]}
{"id": "C21", "title": "Levenshtein distance is the edit distance", "statement": "levenshtein_distance(s1, s2) is the minimal number of insertions, deletions and substitutions turning s1 into s2; it is a metric. argmin_levenshtein returns a string of the list at minimal distance despite its early exit.", "quantifier": "all pairs of strings, all non-empty lists of candidates", "why_tests_cant": "All strings; the early exits depend on length bounds holding for all pairs.", "anchors": ["pm4py/util/string_distance.py: levenshtein_distance, argmin_levenshtein, argmax_levenshtein"]}
{"id": "C22", "title": "OCEL filtering keeps referential integrity", "statement": "propagate_event_filtering, propagate_object_filtering and propagate_relations_filtering keep, of every table, exactly the rows whose references remain; on an OCEL whose relations referred to existing objects (resp. events), every relation, e2e, o2o and object-change row of the result refers to remaining events/objects, no remaining object (resp. event) lacks a relation, and the operation is idempotent. Refuted without the hypothesis.", "quantifier": "all object-centric logs, all row selections", "why_tests_cant": "All tables.", "anchors": ["pm4py/objects/ocel/util/filtering_utils.py"]}
{"id": "C23", "title": "Partial order operations", "statement": "BinaryRelation.add_transitive_edges terminates and yields exactly the transitive closure over distinct intermediate steps; is_strict_partial_order is correct; get_transitive_reduction of a strict partial order yields the smallest relation with the same transitive closure.", "quantifier": "all relations over any finite node set", "why_tests_cant": "All relations; the loops update the matrix while iterating.", "anchors": ["pm4py/objects/powl/BinaryRelation.py"]}
{"id": "C24", "title": "Variant filtering partitions the log", "statement": "Filtering an event log on a set of variants keeps exactly the traces whose variant is admitted (retain=True) or not (retain=False), each as often as in the log; the two results split the log; the traces of one variant keep their order; filtering twice is filtering once; the variants of the result are the admitted ones that occur. On dataframes the rows of the selected cases are kept in order, each case entirely. top-k keeps the k highest variants by (count, name); the coverage filters keep the variants with at least/at most that share; the percentage filter keeps a variant iff it is of maximal frequency or the strictly more frequent variants cover less than the percentage, and its result covers at least the percentage. get_variants maps each variant to its traces; the stochastic language sums to 1. Refuted: the order of the log is not preserved for event logs (it is if the variants are grouped).", "quantifier": "all logs and dataframes, all variant sets, all k and percentages", "why_tests_cant": "All logs of any size.", "anchors": ["pm4py/algo/filtering/log/variants/variants_filter.py", "pm4py/algo/filtering/pandas/variants/variants_filter.py", "pm4py/statistics/variants/log/get.py"]}
{"id": "C25", "title": "Declare conformance: exact verdicts, and agreement with discovery", "statement": "Declare conformance reports a trace to deviate from a constraint exactly when it violates the standard meaning, for existence, absence, exactly one, init, responded existence, coexistence, non-coexistence, response, precedence, alternate and chain succession; for the other templates the accepted traces are characterised exactly (succession additionally requires both activities, alternate/chain response additionally forbid repeated targets; sound but not complete). Each constraint is reported once, the fitness is 1 - deviations/constraints and is 1 exactly for fit traces. Discovery's support and confidence are the numbers of traces activating / meeting the constraint, and the constraints returned are exactly those above the thresholds; automatic thresholds keep the best constraint. If a constraint is discovered with confidence = support, no trace of the log deviates from it for the templates existence, absence, init, responded existence, response, coexistence, non-coexistence, alternate and chain response; with confidence = number of traces, for all templates. Refuted: the same with confidence = support for precedence, exactly one, succession; alternate/chain precedence accept <b,a,b> and reject <a>; alternate response is checked for the couples of response; non-coexistence is counted twice, so fitness can be -1.", "quantifier": "all event logs, all Declare models, all traces, all thresholds", "why_tests_cant": "All logs, traces of any length and models of any size.", "anchors": ["pm4py/algo/discovery/declare/variants/classic.py", "pm4py/algo/conformance/declare/variants/classic.py"]}
{"id": "C26", "title": "Token-based replay: accounting, fitness and verdicts", "statement": "For every net and trace, token-based replay reports counters with produced + missing = consumed + remaining when arcs have weight 1 (and the left side never exceeds the right with weights); the fitness lies in [0,1] and, when something was consumed and produced, is 1 exactly if there are no missing and remaining tokens. The activated transitions that are visible spell the replayable part of the trace; a trace reported fit without missing and remaining tokens has a run from the initial to the final marking with these labels; on nets without duplicate labels and hidden transitions the verdict is exact in both directions, and so it is for state machines with hidden transitions. The table of hidden paths holds shortest paths of hidden transitions (up to 51). The result of a log is that of its traces, and log fitness lies in [0,1]. Refuted: accounting with weighted arcs; non-negative fitness with stop_immediately_unfit; fitness 1 means fit when nothing is consumed; trace_is_fit agrees with the missing tokens; completeness with duplicate labels or hidden transitions in general; independence of a trace's result from the other traces (activities that are not in the model).", "quantifier": "all nets, markings, traces, logs and parameters", "why_tests_cant": "All nets, arc orders, traces and hidden structures.", "anchors": ["pm4py/algo/conformance/tokenreplay/variants/token_replay.py", "pm4py/objects/petri_net/utils/petri_utils.py:get_places_shortest_path_by_hidden", "pm4py/algo/evaluation/replay_fitness/variants/token_replay.py:evaluate"]}
{"id": "C27", "title": "Prefix tree (trie) is lossless", "statement": "The trie built from a log without a length limit has exactly one path per non-empty prefix of a variant and no other paths, each node's depth is the length of its path; a word ends in a final node exactly if it is a variant that is not a prefix of a variant inserted earlier. Hence for logs in which no variant is a prefix of another the final paths are exactly the variants; in general (expected: final paths = variants) this fails.", "quantifier": "all logs", "why_tests_cant": "All logs.", "anchors": ["pm4py/algo/transformation/log_to_trie/algorithm.py", "pm4py/objects/trie/obj.py"]}
{"id": "C28", "title": "Inhibitor and reset arcs", "statement": "In inhibitor/reset nets a transition is enabled iff every normal input place has enough tokens and every inhibitor place is empty; firing empties reset places, leaves inhibitor places untouched, and moves tokens on normal arcs.", "quantifier": "all nets without parallel arcs, all markings", "why_tests_cant": "All nets and markings.", "anchors": ["pm4py/objects/petri_net/inhibitor_reset/semantics.py"]}
{"id": "C29", "title": "Extensive playout of a Petri net is exact up to the length bound", "statement": "The extensive playout of a net whose arcs have positive weights (no parallel arcs) returns only traces of runs that end in the final marking (or, without one, in a deadlock) and are not longer than the bound; without a marking-occurrence limit it returns all of them; with a final marking each once; with the limit k no returned run leaves a marking more than k times; the search ends on every net with finitely many reachable markings, after at most 1+|T|*|states| iterations. Refuted: without a final marking the same trace may be returned several times; the length bound does not make the search end when silent transitions can fire forever.", "quantifier": "all nets, initial and final markings, bounds", "why_tests_cant": "All nets and all runs.", "anchors": ["pm4py/algo/simulation/playout/petri_net/variants/extensive.py"]}
{"id": "C30", "title": "Interval overlap counts", "statement": "compute overlap: for each interval the reported number is the count of intervals in the list that intersect it (within the epsilon tolerance), provided the list has no repeated interval; repeated intervals are counted once, so with duplicates the expected count is missed.", "quantifier": "all lists of intervals", "why_tests_cant": "All interval lists.", "anchors": ["pm4py/statistics/overlap/utils/compute.py"]}
{"id": "C31", "title": "Converted process trees are sound workflow nets", "statement": "The Petri net obtained from a process tree is a safe and sound workflow net: from every reachable marking the final marking can be reached, a reachable marking with a token in the sink is the final marking, no place ever holds more than one token, every transition can fire; the source has no incoming, the sink no outgoing arc and all other places have both.", "quantifier": "all process trees (loops and ORs with at least two children), all iteration orders, all reachable markings", "why_tests_cant": "Quantifies over all reachable markings of nets of unbounded size.", "anchors": ["pm4py/objects/conversion/process_tree/variants/to_petri_net.py: apply, recursively_add_tree", "pm4py/objects/petri_net/utils/reduction.py: apply_simple_reduction", "pm4py/objects/petri_net/semantics.py: is_enabled, execute"]}
{"id": "C32", "title": "Inductive miner nets are sound and replay the log", "statement": "discover_petri_net_inductive returns an accepting Petri net that accepts every trace of the log it was discovered from and that is safe and sound.", "quantifier": "all logs, all iteration orders and process-pool results, all reachable markings of the net", "why_tests_cant": "Composition of mining, folding, sorting, conversion and reduction over all logs.", "anchors": ["pm4py/discovery.py: discover_petri_net_inductive", "pm4py/algo/discovery/inductive/algorithm.py: apply", "pm4py/objects/conversion/process_tree/variants/to_petri_net.py: apply"]}
{"id": "C33", "title": "Memory-efficient (default) alignments are alignments and are found", "statement": "The default alignment variant (dijkstra_less_memory) returns, for a trace and an accepting Petri net, a sequence of moves whose log part is the trace, whose model part is a complete run of the net and whose synchronous moves pair equal labels, with a reported cost equal to the sum of the move costs; it reports no alignment only if the net has no complete run at all; it ends on nets with finitely many reachable markings. It is NOT guaranteed to be optimal: counterexamples (including a perfectly fitting trace with positive cost) are proved.", "quantifier": "all nets without parallel arcs, all traces, all cost functions, all initial and final markings, all orders in which the priority queue returns minimal states", "why_tests_cant": "The pruning rules (closed positions per marking, no log move after a model move, one model move per successor marking) must be harmless for completeness on every net and trace.", "anchors": ["pm4py/algo/conformance/alignments/petri_net/variants/dijkstra_less_memory.py: apply, __dijkstra, __fire_trans, __dict_leq, __encode_marking, __decode_marking, __check_closed, __reconstruct_alignment"]}
{"id": "C34", "title": "Bottom-up processing of process trees", "statement": "If no visible label occurs twice in a process tree and every operator has a visible leaf below it, the bottom-up node list used for footprints, minimal/maximal trace lengths, playout and alignments contains every subtree exactly once and every node after its children, whatever the iteration order of sets; hence the dictionaries filled along it hold the recursively defined values, no KeyError is raised, the minimal trace length is that of the shortest trace and, without loops, the maximal trace length that of the longest. Every tree discovered by the inductive miner meets the conditions. Refuted for duplicate labels: for ->('a','b',X('a','b')) the list consists of the two leaves only and every computation raises.", "quantifier": "all process trees, all set iteration orders", "why_tests_cant": "Hash-dependent set order and unbounded trees.", "anchors": ["pm4py/objects/process_tree/utils/bottomup.py:get_bottomup_nodes", "pm4py/objects/process_tree/utils/bottomup.py:get_min_trace_length", "pm4py/objects/process_tree/utils/bottomup.py:get_max_trace_length", "pm4py/algo/discovery/footprints/tree/variants/bottomup.py:get_all_footprints"]}
{"id": "C35", "title": "Footprints fitness and precision", "statement": "Footprints fitness (log based or trace based) and precision are between 0 and 1 for every log and model; fitness of a log against the footprints of a tree accepting all its traces is 1 and the percentage of fit traces is 100; the percentage counts exactly the fit traces; precision is the share of model pairs seen in the log. Refuted: an event log without directly-follows pairs gets fitness 1 although its activities are not those of the model.", "quantifier": "all logs and all footprints", "why_tests_cant": "All logs and models.", "anchors": ["pm4py/algo/conformance/footprints/util/evaluation.py"]}
{"id": "C36", "title": "Variants of a dataframe", "statement": "get_variants / variant counts of a dataframe are those of its cases: the variant recorded for a case is the sequence of activities of its rows and the count of a variant is the number of cases having it, whenever the rows of each case follow one another; the numpy and the groupby computation then agree. Refuted for dataframes with interleaved cases: the sort in the code has no effect, so a case gets activities of other cases and top-k filtering may return an empty dataframe.", "quantifier": "all dataframes", "why_tests_cant": "All row orders and sizes.", "anchors": ["pm4py/objects/log/util/pandas_numpy_variants.py", "pm4py/statistics/traces/generic/pandas/case_statistics.py"]}
{"id": "C37", "title": "Object-centric filters keep exactly what they say", "statement": "The OCEL filters keep exactly the documented events/objects/relations, with the related rows of the other tables and referential integrity: event/object attribute values (or the complement), a closed timestamp interval, objects or types expanded by level-1 interactions, the connected component of an object, components by size, by object type, by activity, events with at least n objects of given types, the first/last event of each object of a type, allowed activities per type. Refuted: objects that interact with no other are never kept by the component filters on length, type and activity; filter_ocel_cc_otype(positive=False) is not the complement; level>1 raises KeyError for unknown identifiers; the per-type count drops events for the minimum 0 and counts an object twice when it has two qualifiers; allowed activities confuse names that contain the separator '@#@#'.", "quantifier": "all object-centric logs, all parameters; networkx by its contract", "why_tests_cant": "All tables, all chains of interactions.", "anchors": ["pm4py/filtering.py:filter_ocel_objects", "pm4py/filtering.py:filter_ocel_cc_object", "pm4py/algo/filtering/ocel", "pm4py/algo/transformation/ocel/graphs/object_interaction_graph.py"]}
{"id": "C38", "title": "A* alignments with the marking equation are optimal", "statement": "When the A* search with the marking-equation heuristic returns an alignment of a trace and a net, it is an alignment, the reported cost is the sum of the costs of its moves, and no alignment (of cost up to 10^15, the bound MAX_ALLOWED_HEURISTICS) is cheaper, so it is the cost Dijkstra's search reports; if there is an alignment of such cost the search finds one, and on nets with finitely many reachable markings the search ends in any case. Refuted: a search for which there is no alignment answers None (it may raise IndexError).", "quantifier": "all unit-weight nets, traces, non-negative cost functions, exact LP solvers, heap tie-breaking and iteration orders", "why_tests_cant": "Admissibility of a heuristic derived incrementally from earlier LP solutions and re-opened tuples depends on every schedule of the heap.", "anchors": ["pm4py/algo/conformance/alignments/petri_net/variants/state_equation_a_star.py: __search", "pm4py/objects/petri_net/utils/align_utils.py: __derive_heuristic, __trust_solution, __compute_exact_heuristic_new_version, SearchTuple"]}
{"id": "C39", "title": "Alignment-based fitness", "statement": "The fitness computed from optimal alignments (Dijkstra, A*) with non-negative costs lies in [0,1] and the cost of a trace does not exceed its reported worst cost; with the default costs the fitness of a non-empty trace is 1 exactly if the trace is the label sequence of a complete run with fewer than 10000 silent steps, and fitness 1 always implies that the trace fits. Aligning a log gives, in the order of the log, what aligning each trace gives. Percentage, average and log fitness of a log lie in [0,100], [0,1], [0,1], percentage 100 / average 1 mean that every trace has fitness 1, log fitness 1 means that every cost is 0. Refuted: every fitting trace has fitness 1 (10000 silent steps; the empty trace); fitness of dijkstra_less_memory is non-negative; the log fitness of a log of fitting traces is 1.", "quantifier": "all nets, traces, logs and cost functions", "why_tests_cant": "Range and exactness quantify over all nets and traces and over all optimal alignments.", "anchors": ["pm4py/algo/conformance/alignments/petri_net/algorithm.py: apply_trace, apply_log, __get_variants_structure, __form_alignments", "pm4py/algo/evaluation/replay_fitness/variants/alignment_based.py: evaluate", "pm4py/algo/conformance/alignments/petri_net/variants/dijkstra_less_memory.py"]}
{"id": "C40", "title": "Filtering of directly-follows graphs", "statement": "Filtering a DFG on a percentage of activities, of paths, or on the dependency threshold returns a sub-DFG with unchanged frequencies in which every remaining activity lies on a path from a remaining start activity to a remaining end activity; for a connected input the ceil((n-1)p)+1 most frequent activities (edges; edges with dependency at least the threshold) are all kept, with keep_all_activities no activity is lost, and every other activity (edge) that remains is needed to keep those connected or to leave an edge; percentage 1 changes nothing. Filtering to / from / containing an activity terminates and keeps exactly the activities on paths to / from / through the activity, preserving connectivity. get_successors / get_predecessors terminate and compute the transitive closure. Cleaning on a noise threshold keeps an edge iff it is strong enough for one of its activities, and the strongest edge of each activity always. Refuted: filtering never returns a DFG without edges.", "quantifier": "all DFGs (with distinct keys mentioning only known activities), percentages, thresholds, activities, tie-breaking orders", "why_tests_cant": "Connectivity, minimality and termination quantify over all graphs.", "anchors": ["pm4py/algo/filtering/dfg/dfg_filtering.py: filter_dfg_on_activities_percentage, filter_dfg_on_paths_percentage, filter_dfg_keep_connected, filter_dfg_to_activity, filter_dfg_from_activity, filter_dfg_contain_activity, clean_dfg_based_on_noise_thresh", "pm4py/objects/dfg/utils/dfg_utils.py: get_successors, get_predecessors, get_max_activity_count"]}
{"id": "C41", "title": "Event-log filters keep what they promise", "statement": "On event logs each filter returns exactly the traces (unchanged, in order) that satisfy the property in its name, and its negative form exactly the others: eventually-follows (values as a subsequence), A-next-B-next-C, different persons, start/end activities, attribute values, directly-follows paths, path performance, repetition, rework, case size, number of cases, case performance, contained/intersecting/attribute-in-timeframe (traces sorted by time), four eyes, prefix/suffix to the first/last occurrence (complementary), and `between` returns exactly the subtraces from a start event to the next end event. Refuted: eventually-follows with time bounds checks the right events; the positive and negative four-eyes and numeric filters partition the log.", "quantifier": "all event logs (any number and length of traces, missing attributes), activities, bounds, positive/negative modes", "why_tests_cant": "An exact keep/drop condition quantifies over all traces; tests check a few logs where wrong and right conditions coincide.", "anchors": ["pm4py/algo/filtering/log/ltl/ltl_checker.py", "pm4py/algo/filtering/log/{attributes,paths,rework,cases,timestamp,prefixes,suffixes,between,start_activities,end_activities,attr_value_repetition}"]}
{"id": "C42", "title": "Dataframe filters agree with event-log filters", "statement": "Filtering a dataframe and converting it to an event log gives the same traces as converting first and filtering the event log. Proved for eventually-follows (also with one time bound), different persons, start/end activities, attribute values, the positive numeric filter, rework, repetition with a positive lower bound, case size and performance, contained, timeframe, prefixes/suffixes, between two different activities (contiguous cases), splitting of cases (sorted cases), paths when no name contains the separator. One-sided or conditional: A-next-B-next-C (sound; complete if B and C occur once), four eyes (agrees if B has one resource per case), intersecting (sound; complete away from the bounds), path performance and starts-with (complete). Refuted: totality of eventually-follows, completeness of A-next-B-next-C, soundness of four eyes, negative numeric filter, repetition with lower bound 0, intersecting at the bounds, paths with separators in names, path performance across cases, starts-with on names that are prefixes of others, spno activities (returns the dataframe unfiltered), between for one activity, case splitting on unsorted cases.", "quantifier": "all dataframes (any order and interleaving of rows where stated), activities, bounds, positive/negative modes", "why_tests_cant": "Agreement of two implementations quantifies over all dataframes; the project tests run both on one log where they coincide.", "anchors": ["pm4py/algo/filtering/pandas/ltl/ltl_checker.py", "pm4py/algo/filtering/pandas/{attributes,paths,rework,cases,timestamp,prefixes,suffixes,between,activity_split,starts_with,start_activities,end_activities,attr_value_repetition}", "pm4py/objects/conversion/log/variants/to_event_log.py"]}
{"id": "C43", "title": "Log conversions lose nothing", "statement": "Converting an event log to an event stream and back returns the same log (traces, order, attributes, events) if no trace is empty, every trace has its own concept:name, and 'case:' neither occurs in trace attribute names nor starts event attribute names; without case attributes events and order are preserved for all identifiers. Converting a stream/dataframe to an event log raises iff an event has no case identifier; otherwise its traces are the events of each case in order, cases in order of first event; and back again gives the same events grouped by case, if case attributes are constant per case. Refuted: the conditions are needed (empty traces lost, equal identifiers merged, names renamed), and converting a log to a dataframe leaves the log as it was.", "quantifier": "all event logs, streams and dataframes with any attributes and any interleaving of cases", "why_tests_cant": "Round trips must hold for every log and every attribute name; tests convert one sample log.", "anchors": ["pm4py/objects/conversion/log/variants/to_event_log.py", "pm4py/objects/conversion/log/variants/to_event_stream.py", "pm4py/objects/conversion/log/variants/to_data_frame.py"]}
{"id": "C44", "title": "Petri nets and playouts of directly-follows graphs have the language of the graph", "statement": "The Petri net converted from a directly-follows graph accepts exactly the graph's traces (start activity, arcs, end activity) whose activities occur in arcs, hence all of length at least two; the variant with invisible transitions accepts exactly all of them if the artificial names are new, and raises iff there is no start or no end activity. Every reachable marking is one token; the default net can always complete if the graph can; every trace of at least two events of a log is accepted by the net of its discovered graph. The playout of a complete graph ends, without exception, and yields every trace with at most max_no_occ_per_activity occurrences of each activity exactly once with its probability; the probabilities add up to at most 1; get_trace_probability is that probability, positive exactly for traces of the graph; with the default options the first max_no_variants are kept. Refuted: single-activity traces of activities in no arc are accepted; artificial names may be used as activities; the most likely traces come first; no exception on dead ends.", "quantifier": "all directly-follows graphs, start/end activities, traces, and all orders in which a heap may return its entries", "why_tests_cant": "Language equality ranges over infinitely many traces; tests convert one graph and check that nothing is raised.", "anchors": ["pm4py/objects/conversion/dfg/variants/to_petri_net_activity_defines_place.py", "pm4py/objects/conversion/dfg/variants/to_petri_net_invisibles_no_duplicates.py", "pm4py/algo/simulation/playout/dfg/variants/classic.py", "pm4py/objects/dfg/utils/dfg_utils.py"]}
{"id": "C45", "title": "The Alpha Miner computes the net of the Alpha algorithm", "statement": "The internal places of the net discovered by the Alpha Miner (classic) are exactly the maximal pairs (A,B) of the Alpha algorithm's definition - every a in A causally precedes every b in B, no directly-follows within A or within B - each once, whatever order the causal relation is iterated in; transitions are exactly the activities of the log; arcs are exactly those of the definition; every causal pair without self-loops is connected by a place. For a log with one variant without repeated activities the net accepts exactly this variant. Refuted: the net can replay every trace of the log (self-loops).", "quantifier": "all event logs (any number and order of activities, traces and variants)", "why_tests_cant": "The code grows the list of pairs while iterating over it with a range fixed at the start: that no maximal pair is missed must hold for every relation and every iteration order; tests compare one net.", "anchors": ["pm4py/algo/discovery/alpha/variants/classic.py", "pm4py/algo/discovery/alpha/data_structures/alpha_classic_abstraction.py", "pm4py/algo/discovery/causal/variants/alpha.py"]}
{"id": "C46", "title": "The default playout of a process tree can produce exactly its traces", "statement": "Whatever the random choices are, every trace produced by the default playout of a process tree (pm4py.play_out on a tree) is a trace of the tree's language, and every trace of the language can be produced; playing out the parallel operator never fails (IndexError), whatever order the shuffle gives. For trees without the OR operator and with loops of two children. Refuted for OR (the function returns None, a TypeError for the caller) and for loops with more than two children (only the first redo child is ever used).", "quantifier": "all process trees (any depth and number of children), all random choices, all traces", "why_tests_cant": "The playout is random and the language is usually infinite: no finite number of runs shows that all traces are in the language, nor that every trace can occur.", "anchors": ["pm4py/algo/simulation/playout/process_tree/variants/topbottom.py:get_ex_seq"]}
{"id": "C47", "title": "The extensive playout of a process tree is exact", "statement": "The extensive playout of a process tree (choice, sequence and parallel with at least two children, loops with a do and a redo part) always ends; every trace it returns is a trace of the tree with at most max_loop_occ repetitions per loop and, unless the root is a choice or silent, of a length between min_trace_length and max_trace_length; if the limit on the number of traces is not reached it returns every such trace, so with max_loop_occ >= max_trace_length (or with the default half of it, when no loop part can be passed without an event) the result within the length bounds is exactly the language of the tree. Refuted: the default loop bound is always enough; no returned trace violates the length bounds (choice or silent root); every tree can be played out.", "quantifier": "all process trees (any depth, any number of children), all length bounds, loop bounds, limits and set iteration orders, all traces", "why_tests_cant": "Pruning with remaining lengths per node, early breaks over sorted lists and a closed set in the loop search can each lose traces of some tree and bound only; the language is infinite and a test compares one finite log.", "anchors": ["pm4py/algo/simulation/playout/process_tree/variants/extensive.py", "pm4py/objects/process_tree/utils/bottomup.py"]}
{"id": "C48", "title": "POWL models are converted to sound nets with exactly their traces", "statement": "Converting a POWL model (activities, choices, loops, partial orders) to a Petri net returns an accepting net whose firing sequences from the initial to the final marking spell exactly the traces of the model: one trace per child of a partial order, interleaved so that whenever i is before j all events of i precede all events of j. The net is a sound, safe workflow net and has one visible transition per visible activity. The relation of a partial order may be any acyclic relation; models accepted by validate_partial_orders are covered.", "quantifier": "all POWL models with acyclic orders, choices of two or more, no empty partial order; all traces; all reachable markings; all iteration orders of the sets of places and transitions", "why_tests_cant": "infinitely many models, unbounded nesting, loops with infinitely many traces; a missing or additional place only shows for particular orders", "anchors": ["pm4py/objects/conversion/powl/variants/to_petri_net.py: apply, recursively_add_tree", "pm4py/objects/powl/obj.py: StrictPartialOrder, OperatorPOWL, validate_partial_orders", "pm4py/objects/powl/BinaryRelation.py: get_transitive_reduction, get_start_nodes, get_end_nodes", "pm4py/objects/petri_net/utils/reduction.py: apply_simple_reduction"]}
{"id": "C49", "title": "Simplifying a POWL model keeps its traces", "statement": "`simplify` on a POWL model (merging nested choices, turning a choice between a silent step and a loop with a silent part into a loop, dissolving nested partial orders) terminates and returns a model with exactly the same traces, whose partial orders are acyclic again, with the same multiset of visible activities and not more nodes. The nets of the model and of its simplification accept the same traces. (`simplify_using_frequent_transitions`, used for drawing, does not keep the traces: refuted.)", "quantifier": "all POWL models with acyclic orders, choices of two or more, no empty partial order, any nesting; all traces", "why_tests_cant": "unbounded nesting and arbitrary orders; a wrong connection between a dissolved order and its surroundings only shows for particular orders and interleavings", "anchors": ["pm4py/objects/powl/obj.py: StrictPartialOrder.simplify, OperatorPOWL.simplify, simplify_using_frequent_transitions, FrequentTransition", "pm4py/algo/discovery/powl/algorithm.py: apply"]}
{"id": "C50", "title": "POWL discovery: termination, fitness, labels, soundness", "statement": "`discover_powl` in the variants TREE, MAXIMAL and BRUTE_FORCE (no filtering threshold) terminates on every log, whatever the iteration order of sets; it either raises or returns a POWL model which accepts every trace of the log, uses every activity of the log exactly once and no other label, has acyclic partial orders and choices of two or more, and whose Petri net is sound and replays every trace. It raises exactly when the recursion meets a sublog that is split by a loop cut with three or more groups - which happens on ordinary logs (refuted: `<1>,<1,2,1>,<1,3,1>`).", "quantifier": "all logs (fewer activities than the platform integer maximum), the three variants, all iteration orders of sets and dictionaries", "why_tests_cant": "unbounded logs and recursion; fitness of a partial order cut is a statement about all interleavings; the exception depends on the shape of sublogs deep in the recursion", "anchors": ["pm4py/discovery.py: discover_powl", "pm4py/algo/discovery/powl/algorithm.py: apply", "pm4py/algo/discovery/powl/inductive/variants/im_tree.py: IMBasePOWL.apply", "pm4py/algo/discovery/powl/inductive/variants/maximal/maximal_partial_order_cut.py", "pm4py/algo/discovery/powl/inductive/variants/brute_force/bf_partial_order_cut.py", "pm4py/algo/discovery/powl/inductive/cuts, fall_through, base_case"]}
{"id": "C51", "title": "filter_eventually_follows_relation and the rule filters select whole cases by the combined rules", "statement": "On event logs `ltl_checker.eventually_follows`, `A_next_B_next_C`, `four_eyes_principle` and `attr_value_different_persons` keep, unchanged and in order, exactly the traces that satisfy (or, with positive=False, violate) the rule as it is documented; on dataframes `eventually_follows` (two or more values; with a time boundary for two values) and `attr_value_different_persons` keep exactly the rows of such cases whatever the interleaving of the cases; the four-eyes filter on dataframes does so if the second activity has one resource per case, and `A_next_B_next_C` on dataframes never keeps a wrong case. `filter_eventually_follows_relation` keeps the cases in which some relation holds (retain) or none (otherwise). Refuted: time boundaries on event logs, three values with time boundaries on dataframes, four eyes on dataframes in general, completeness of next-next on dataframes.", "quantifier": "all logs and dataframes (any interleaving of cases, missing activities and resources), all activity lists, both modes", "why_tests_cant": "the rules quantify over all positions of arbitrary traces; the dataframe versions are joins whose wrong cases need particular repetitions", "anchors": ["pm4py/algo/filtering/log/ltl/ltl_checker.py", "pm4py/algo/filtering/pandas/ltl/ltl_checker.py", "pm4py/filtering.py: filter_eventually_follows_relation, filter_four_eyes_principle, filter_activity_done_different_resources"]}
{"id": "C52", "title": "Alignments with a directly-follows graph: termination, optimal cost, fitness", "statement": "`alignments.dfg` (`pm4py.conformance_diagnostics_alignments` with a DFG) ends for every graph, trace and cost functions; it returns nothing exactly if the graph has no complete trace; the returned cost is always the cost of an alignment of the trace with a trace of the graph, and with the default costs (0 for synchronous moves, one constant for the others) it is the least such cost, although the search keeps only the furthest position per activity; it is 0 exactly for the traces of the graph; the fitness is well defined, in [0,1], and 1 exactly for the traces of the graph. The returned moves are such an alignment without the model moves before the first event, if the search did not go to the end node before the end of the trace. Refuted: the moves as an alignment in general (two ways), and optimality with other costs.", "quantifier": "all graphs (also disconnected), all traces, all priority queues that return a least state, all cost functions (optimality: all uniform ones)", "why_tests_cant": "optimality compares with infinitely many alignments; the closed set prunes states of other positions, which is only sound by a global exchange argument on all paths", "anchors": ["pm4py/algo/conformance/alignments/dfg/variants/classic.py: apply_log, __apply_list_activities, __return_alignment", "pm4py/objects/petri_net/utils/align_utils.py"]}
{"id": "C53", "title": "Conversion of a workflow net to a process tree keeps the language", "statement": "`pm4py.convert_to_process_tree` of a Petri net with unit weights, no parallel arcs, distinct names and at least two transitions: the workflow-net check answers yes exactly for the workflow nets (one source, one sink, every place and transition on a path from the source to the sink); the reduction loop ends for each of them; if a tree is returned, no reachable marking of the net has two tokens in a place, and if the net has any complete run from its source to its sink, the traces of the tree are exactly the traces of the net - whatever reductions are found in whatever order, with any insertions of silent transitions. Refuted: the same without a complete run (the tree has traces, the net has none), with arc weights (they are ignored), and the check with equal names (it works on names).", "quantifier": "all nets (any size, any structure), all labellings, all enumeration orders of the sets of transitions, all traces", "why_tests_cant": "equality of two infinite languages through an arbitrary sequence of reductions whose order depends on the iteration order of Python sets", "anchors": ["pm4py/objects/conversion/wf_net/variants/to_process_tree.py: apply, group_blocks_in_net, loop_requirement, concurrent_requirement, choice_requirement, sequence_requirement, __insert_dummy_invisibles", "pm4py/algo/analysis/workflow_net/variants/petri_net.py: apply"]}
{"id": "C54", "title": "Reducing a process tree with respect to a trace keeps whether the tree has the trace", "statement": "For a process tree in which no label occurs twice and every inner node has a visible leaf below it (as in every tree discovered by the inductive miner), reducing it with respect to a trace returns a tree without an exception, whatever the iteration order of the sets of nodes; the returned tree has the trace iff the given tree has it (both have the same traces over the activities of the trace), and no new labels. For trees without OR and interleaving and with binary loops, exactly the nodes below the root that can be skipped and have no activity of the trace are replaced by silent leaves before folding. With duplicate labels a single leaf can be returned for a tree that has the trace.", "quantifier": "every process tree satisfying the conditions, every trace, every iteration order of the set of nodes", "why_tests_cant": "The loop edits lists of children in place along a list of nodes whose order comes from a hash set, and finds a child with list.index, i.e. by structural equality; during the reduction different siblings become equal, so that the slot overwritten can be that of a sibling. Tests see one hash order.", "anchors": ["pm4py/algo/reduction/process_tree/variants/tree_tr_based.py:apply", "pm4py/algo/reduction/process_tree/variants/tree_tr_based.py:reduce", "pm4py/objects/process_tree/utils/bottomup.py:get_bottomup_nodes", "pm4py/algo/discovery/footprints/tree/variants/bottomup.py:get_all_footprints", "pm4py/objects/process_tree/obj.py:ProcessTree.__eq__"]}
{"id": "C55", "title": "Converting a process tree to POWL keeps the language", "statement": "Converting a process tree to a POWL model raises exactly for trees with an OR node, a choice with fewer than two children or a loop without exactly two children. For trees without interleaving nodes the POWL model has exactly the traces of the tree, its relations are irreflexive partial orders after closure, and the Petri net of the POWL model accepts exactly the traces of the tree. Interleaving nodes are converted to unordered partial orders, which have more traces.", "quantifier": "every process tree, every trace, every iteration order of the sets used when converting to a net", "why_tests_cant": "Equality of two (in general infinite) languages for every tree.", "anchors": ["pm4py/objects/conversion/process_tree/variants/to_powl.py:apply", "pm4py/objects/conversion/process_tree/variants/to_powl.py:apply_recursive", "pm4py/objects/powl/obj.py:OperatorPOWL", "pm4py/objects/powl/obj.py:StrictPartialOrder"]}
{"id": "C56", "title": "The regular expression of a process tree matches exactly the traces of the tree", "statement": "pt_to_regex raises exactly for trees with a parallel or OR node or a loop all whose children are silent leaves; the dictionary returned has exactly the labels of the tree, each once, with pairwise different characters that are not special in patterns. For trees of sequences, choices and binary loops whose first child is not a silent leaf, the pattern is a valid pattern and, read with the syntax of Python re, matches exactly the traces of the tree written with the characters of the dictionary. It is wrong for loops with a silent first child, loops with more than two children and interleaving.", "quantifier": "every process tree, every trace", "why_tests_cant": "Equality of two (in general infinite) languages for every tree; the pattern is a string whose meaning depends on the precedence of the operators of patterns.", "anchors": ["pm4py/objects/process_tree/utils/regex.py:pt_to_regex", "pm4py/util/regex.py:get_new_char", "pm4py/util/regex.py:SharedObj"]}
{"id": "C57", "title": "Writing a process tree to PTML and reading it back gives the tree", "statement": "Exporting a process tree to PTML raises exactly for trees with an interleaving node. If every loop has two children, or at least four, importing the exported document returns the tree up to sorting of the children of choices and parallel nodes, so with the same traces. Loops with three children are read back differently: the third child is lost at the root, and below the root it is put behind the loop, at the end of the children of the parent, which changes the language.", "quantifier": "every process tree, every assignment of distinct identifiers to nodes", "why_tests_cant": "The document is a flat list of nodes and edges in breadth-first order; the importer rebuilds the tree by appending to lists of children and then edits loops in place. Equality must hold for trees of every shape.", "anchors": ["pm4py/objects/process_tree/exporter/variants/ptml.py:export_ptree_tree", "pm4py/objects/process_tree/exporter/variants/ptml.py:get_list_nodes_from_tree", "pm4py/objects/process_tree/importer/variants/ptml.py:import_tree_from_xml_object", "pm4py/write.py:write_ptml", "pm4py/read.py:read_ptml"]}
{"id": "C58", "title": "A directly-follows graph written to a .dfg file is read back unchanged", "statement": "pm4py.write_dfg followed by pm4py.read_dfg (or serialize / deserialize) returns exactly the same edges with counts, start activities and end activities, whatever order Python enumerates the set of activities in, provided the activity names contain no line break and no surrounding white space; the export raises exactly if there are no start activities, no end activities or a start/end activity lies on no edge. Without that proviso the names are stripped, and activities may be merged; activities of single-event cases cannot be written.", "quantifier": "all directly-follows graphs, start and end activities, counts (any integers), activity names (any character sequences), and enumeration orders of the activity set", "why_tests_cant": "The order of a Python set of strings changes between runs (hash randomisation), and names range over all texts, including ones containing the separators x and > of the format.", "anchors": ["pm4py/objects/dfg/exporter/variants/classic.py:export_line_by_line", "pm4py/objects/dfg/exporter/variants/classic.py:export_as_string", "pm4py/objects/dfg/importer/variants/classic.py:import_dfg_from_rows", "pm4py/objects/dfg/importer/variants/classic.py:import_dfg_from_string", "pm4py/write.py:write_dfg", "pm4py/read.py:read_dfg"]}
{"id": "C59", "title": "An accepting Petri net written to PNML is read back with the same structure and markings", "statement": "pm4py.write_pnml followed by pm4py.read_pnml gives a net with the same places, transitions (names, labels, silent transitions, guards, variables), arcs (ends, weights, reset/inhibitor type) and the same initial and final marking, for every enumeration order of the sets of places, transitions and arcs, provided names of places (of transitions) are unique, labels are non-empty, weights at least one and the final marking non-empty. An empty final marking is replaced by a guess; nets written in ProM 5 mode with a labelled transition cannot be read; equal names re-attach or reverse arcs.", "quantifier": "all accepting Petri nets including reset and inhibitor nets, all names, labels, markings, iteration orders, random identifiers and hashes", "why_tests_cant": "The exporter iterates over Python sets and identifies objects by name; equality must hold for all nets, names and iteration orders.", "anchors": ["pm4py/objects/petri_net/exporter/variants/pnml.py:export_petri_tree", "pm4py/objects/petri_net/importer/variants/pnml.py:import_net_from_xml_object", "pm4py/objects/petri_net/utils/petri_utils.py:add_arc_from_to", "pm4py/objects/petri_net/utils/final_marking.py:discover_final_marking", "pm4py/write.py:write_pnml", "pm4py/read.py:read_pnml"]}
{"id": "C60", "title": "An event log written to XES is read back unchanged by the chunk-based importer, however the file is cut", "statement": "A log exported with the default XES exporter and read with the chunk_regex importer has the same extensions, classifiers, globals, log attributes, traces and events, independently of where the file is cut into chunks, provided its strings contain none of the characters that XML escapes, no attribute is nested or None and concept:name is a string; otherwise nested attributes are replaced by their value and None dropped. The file is read correctly in 4096-byte blocks if it is ASCII. Strings with & or a double quote, multi-byte characters across a block boundary, nested attributes, Boolean names and classifiers with spaces are not read back.", "quantifier": "all logs (attributes of every type, nesting, None), all strings, encodings, chunk boundaries and codecs of dates and floats", "why_tests_cant": "The importer keeps the unfinished last element of each block; correctness must hold for every position of the block boundary and every log.", "anchors": ["pm4py/objects/log/exporter/xes/variants/line_by_line.py:export_log_line_by_line", "pm4py/objects/log/importer/xes/variants/chunk_regex.py:import_log", "pm4py/write.py:write_xes", "pm4py/read.py:read_xes"]}
{"id": "C61", "title": "The line-by-line importer reads every trace, event and selected attribute of an exported log", "statement": "A log exported with the default XES exporter and read with the line_by_line importer has, for the first MAX_TRACES + 1 traces, the attributes asked for, with values equal under ==, children of nested attributes moved to the event or trace; values are identical if the log has no two values that are equal but of different type. MAX_TRACES reads one trace too many, True after 1 is read as 1, and a child with the name of an attribute replaces it.", "quantifier": "all logs (attributes of every type, nesting, None), all strings, encodings, chunk boundaries and codecs of dates and floats, every set of attributes to read and every maximum", "why_tests_cant": "Values are shared through one dictionary for the whole file, so a value can depend on any earlier value; the claim ranges over all logs.", "anchors": ["pm4py/objects/log/importer/xes/variants/line_by_line.py:import_from_context", "pm4py/objects/log/importer/xes/variants/line_by_line.py:import_log", "pm4py/objects/log/exporter/xes/variants/line_by_line.py:export_log_line_by_line"]}
{"id": "C62", "title": "The iterparse importer reads an exported log back, whatever its XML parser has already buffered", "statement": "For the stream of start and end events of an exported log, the iterparse importer returns the first MAX_TRACES traces with all events and attributes, extensions, classifiers and globals; nested attributes keep their children if and only if the children are visible at the start event. Without nested attributes and None the result is the log itself for every state of the buffer; with nested attributes the same file can give two different logs.", "quantifier": "all logs (attributes of every type, nesting, None), all strings, encodings, chunk boundaries and codecs of dates and floats, every maximum and every choice of what lxml has buffered at each start event", "why_tests_cant": "What is visible at a start event depends on the parser's buffer, a schedule tests do not control.", "anchors": ["pm4py/objects/log/importer/xes/variants/iterparse.py:import_from_context", "pm4py/objects/log/importer/xes/variants/iterparse.py:__parse_attribute", "pm4py/objects/log/exporter/xes/variants/line_by_line.py:export_log_line_by_line"]}
{"id": "C63", "title": "check_soundness answers True only for sound workflow nets, and says so for those covered by S-components", "statement": "If check_soundness (WOFLAN) returns True for a net with distinct node names and at most 1000 places, the net is a workflow net, the initial marking has one place, and if that place is the source the net is sound: from every reachable marking the final place can be reached, no token is left behind, and every labelled transition can fire. For a sound workflow net whose places are covered by the S-components found, both graph constructions end for every order in which nodes are taken and every execution answers True. The converse fails: a sound net that is not S-coverable is answered False, a dead silent transition is not noticed, and the markings are not compared with source and sink (a net started in its sink is answered True). If infinitely many markings are reachable, the reachability graph construction never ends.", "quantifier": "all nets (any size up to 1000 places, arc weights, labels), all markings, all orders in which sets are popped, all results of the numerical place-invariant computation", "why_tests_cant": "Soundness ranges over all reachable markings and firing sequences; the coverability and reachability constructions iterate sets in arbitrary order and must be right for every order and every net.", "anchors": ["pm4py/analysis.py:check_soundness", "pm4py/algo/analysis/woflan/algorithm.py:apply", "pm4py/algo/analysis/woflan/graphs/minimal_coverability_graph/minimal_coverability_graph.py:apply", "pm4py/algo/analysis/woflan/graphs/reachability_graph/reachability_graph.py:apply", "pm4py/algo/analysis/woflan/graphs/utility.py:enabled_markings", "pm4py/algo/analysis/woflan/place_invariants/s_component.py:compute_s_components"]}
{"id": "C64", "title": "Removing implicit places keeps the firing sequences unless a marked place is removed", "statement": "reduce_petri_net_implicit_places never takes a firing sequence or an accepted sequence away. If none of the places it removes is marked initially, the reduced net has exactly the firing sequences of the net; if moreover no reachable marking of the net has the final tokens plus others on the removed places, the accepted language is the same. Places of the final marking, transitions and all other arcs are kept. A marked place can be removed although the language changes (one token, a then c with b back: a a b c becomes possible); tokens left on a removed place are no longer noticed; and because the rows of earlier places are kept, a place that cannot be removed keeps all places with later names from being removed.", "quantifier": "all Petri nets with weights, initial and final markings, all firing sequences of any length; the integer programs are solved exactly", "why_tests_cant": "Language equality ranges over all firing sequences of all nets; tests check a few nets where the removed place happens to be unmarked.", "anchors": ["pm4py/analysis.py:reduce_petri_net_implicit_places", "pm4py/objects/petri_net/utils/murata.py:apply_reduction", "pm4py/objects/petri_net/utils/petri_utils.py:remove_place"]}
{"id": "C65", "title": "Converting a BPMN graph to a Petri net keeps its traces and its soundness", "statement": "For every BPMN graph of tasks, start and end events, exclusive, parallel and (not paired) inclusive gateways, pm4py.convert_to_petri_net returns a net whose token game has exactly the traces of the token game of the graph, with and without reduction and whatever the iteration order of the sets. Executed with semantics.execute, the unreduced net accepts exactly these traces, and so does the reduced one if it has no parallel arcs; if the token game of the graph is sound and every node can be entered and left, both nets are sound (and accept exactly the traces). Limits: between an inclusive split and an inclusive join a silent way around every branch is added, so that start-OR(a,b)-end also accepts the empty trace; a task with two outgoing flows becomes a choice.", "quantifier": "all BPMN graphs (any number of nodes and flows, cycles included), all traces of any length, all iteration orders", "why_tests_cant": "Equality of languages ranges over all graphs and all, in general infinitely many, runs; tests compare a few converted models.", "anchors": ["pm4py/convert.py:convert_to_petri_net", "pm4py/objects/conversion/bpmn/variants/to_petri_net.py:apply", "pm4py/objects/petri_net/utils/reduction.py:apply_simple_reduction", "pm4py/objects/bpmn/obj.py:BPMN"]}
{"id": "C66", "title": "ETConformance precision counts exactly the escaping edges of the states the log visits", "statement": "For every event log whose activity names contain no comma, the sums that precision_token_based_replay and precision_alignments divide are: over every trace and every position, the number of activities the model allows after the prefix, and the number of those no trace of the log takes after that prefix. The result is in [0,1] and is 1 exactly if no allowed activity is left out. For precision_alignments the markings used for a prefix are exactly those reached by replaying it with as few silent transitions as possible (none exactly if it cannot be replayed), whatever the heap and set orders; every activity counted as allowed can follow such a replay through silent transitions, and all of them are counted if every silent transition has one context. Limits: for data frames the initial state is weighted by the number of rows; commas in names split prefixes; visible transitions behind a silent transition that is enabled in two markings can be missed; silent transitions without input place are never fired.", "quantifier": "all event logs, all labelled Petri nets with unit weights, all prefixes of any length, all tie-breaking orders of heap, sets and sorting", "why_tests_cant": "The prefix automaton and the shortest replays range over all logs and infinitely many firing sequences; tests compare a few rounded precision values.", "anchors": ["pm4py/conformance.py:precision_alignments", "pm4py/conformance.py:precision_token_based_replay", "pm4py/algo/evaluation/precision/utils.py:__search", "pm4py/algo/evaluation/precision/utils.py:get_log_prefixes", "pm4py/algo/evaluation/precision/variants/align_etconformance.py:apply", "pm4py/algo/evaluation/precision/variants/etconformance_token.py:apply", "pm4py/objects/petri_net/utils/align_utils.py:get_visible_transitions_eventually_enabled_by_marking"]}
{"id": "C67", "title": "The discovered transition system replays the log", "statement": "For every log, window, direction and view, every transition of the result of discover_transition_system belongs to an event of the log, carries its activity and connects states named by the views before and after it, every event has such a transition, and every state is named by a view of a trace. If no trace has two consecutive equal views, state names are unique and every non-empty trace is a path from the state of its first view to that of its last view, whatever the iteration order of the set of states. With the backward direction and the sequence view the system is deterministic; with a window at least as long as the traces it is the prefix automaton of the log. Without the condition the claim is false: with the default parameters <a,a,a> can yield a transition system in which no path shows the trace.", "quantifier": "all logs, all windows, both directions, all three views, all iteration orders of the set of states", "why_tests_cant": "Tests count states and transitions of one log; the lost paths depend on repeated views and on memory addresses (set order).", "anchors": ["pm4py/discovery.py:discover_transition_system", "pm4py/algo/discovery/transition_system/variants/view_based.py:apply", "pm4py/algo/discovery/transition_system/variants/view_based.py:__construct_state_path", "pm4py/objects/transition_system/obj.py:TransitionSystem"]}
{"id": "C68", "title": "The cycle time counts the busy time before the last busy period", "statement": "For every non-empty list of events that do not end before they start, in whatever order, the production time that get_cycle_time divides by the number of cases is the number of busy time units (time units in which some event is executed) before the begin of the last uninterrupted busy period; the total busy time is that plus the length of the last period. It is between 0 and the duration of the log. So the documented value is never reached: a log without idle time has cycle time 0.", "quantifier": "all lists of events with integer start and completion times, in every order", "why_tests_cant": "The merging of overlapping intervals ranges over all arrangements; the existing tests only check that a number is returned.", "anchors": ["pm4py/stats.py:get_cycle_time", "pm4py/statistics/traces/cycle_time/util/compute.py:cycle_time", "pm4py/statistics/traces/cycle_time/log/get.py:apply"]}
{"id": "C69", "title": "Business-hour durations count exactly the business seconds", "statement": "For all business-hour slots of the week (in any order, overlapping or repeated, within the week and not ending before they begin) and for all two points in time, the business-hour duration is the number of seconds between them whose position in the week lies in a slot, provided no slot begins exactly one second after the end of another one (in that case the second between them is counted too). So durations are between 0 and the elapsed time, 0 if the second time is not later, add up over consecutive intervals, over any number of weeks, and never get shorter when slots are added.", "quantifier": "all lists of slots, all pairs of points in time (any number of weeks apart)", "why_tests_cant": "The loop over weeks and the merging of slots range over unbounded intervals and all slot lists; tests check a few dates.", "anchors": ["pm4py/util/business_hours.py:BusinessHours", "pm4py/util/business_hours.py:soj_time_business_hours_diff", "pm4py/util/business_hours.py:get_overlapping_time", "pm4py/util/constants.py:DEFAULT_BUSINESS_HOUR_SLOTS"]}
{"id": "C70", "title": "Batch detection partitions the executions and keeps close ones together, but also joins distant ones", "statement": "For every list of distinct executions of an activity by a resource, in any order, and however ties are ordered, the intervals that discover_batches examines partition the executions, have the bounds of their executions, are listed in the order of time and lie more than the merge distance apart; so two executions that overlap or are at most the merge distance apart are always in the same interval. The reported batches are the intervals with at least the minimum size, and their type is as documented. The converse fails: a batch can contain an execution that is arbitrarily far from all the others (two different mechanisms, with already sorted executions and with executions in case order).", "quantifier": "all lists of distinct executions, all merge distances, all minimum sizes, all tie-breaking orders of heap and sort", "why_tests_cant": "The merging loops rearrange the list with a heap; which intervals become neighbours depends on all the executions. Tests only check that some batches are found.", "anchors": ["pm4py/discovery.py:discover_batches", "pm4py/algo/discovery/batches/utils/detection.py:__merge_overlapping_intervals", "pm4py/algo/discovery/batches/utils/detection.py:__merge_near_intervals", "pm4py/algo/discovery/batches/utils/detection.py:__check_batch_type", "pm4py/algo/discovery/batches/utils/detection.py:__detect_single"]}
{"id": "C71", "title": "Temporal profiles are the exact statistics of all eventually-following pairs, and conformance reports exactly the pairs outside ζ deviations", "statement": "For every log, discover_temporal_profile has an entry for a pair of activities exactly if some trace has an event of the first one, ended before or when a later event of the second one starts; the entry is the mean and the sample standard deviation (0 for a single one) of all these time differences. conformance_temporal_profile reports for each trace exactly the pairs of events whose difference is more than ζ standard deviations from the mean of the profile, with that difference and the number of deviations, which is then larger than ζ. A log conforms to its own profile if no pair has more than 37 observations with the default ζ = 6 (in general (n-1)² ≤ ζ² n); with 38 observations it may deviate from its own profile.", "quantifier": "all logs, all profiles, all ζ", "why_tests_cant": "Which pairs are recorded depends on every pair of positions of every trace; that a log conforms to its own profile is an inequality about all lists of numbers.", "anchors": ["pm4py/discovery.py:discover_temporal_profile", "pm4py/conformance.py:conformance_temporal_profile", "pm4py/algo/discovery/temporal_profile/variants/log.py:apply", "pm4py/algo/conformance/temporal_profile/variants/log.py:apply"]}
{"id": "C72", "title": "Process trees are converted to sound BPMN graphs with the same traces", "statement": "For every process tree whose labels are not empty, whose operators have a child, whose sequences have at least two children and that has no inclusive choice and no interleaving, convert_to_bpmn raises no exception and returns a graph with exactly one start event, one end event and one task per labelled leaf (in the order of the leaves; no silent or auxiliary task is left). The traces of the graph (token game) are exactly the traces of the tree; the graph is sound and safe, and every node can be entered and left. Converted on to a Petri net (with or without reduction) it gives a sound and safe net with the same traces. discover_bpmn_inductive therefore gives, for every log with non-empty activity names, a sound graph that has all the traces of the log and whose tasks are the activities of the log. Without the conditions this fails: a sequence with one child gives a graph with no trace, an interleaving is dropped silently.", "quantifier": "all process trees of the class, all logs, all iteration orders of the sets", "why_tests_cant": "The equality of two languages, and soundness of all the reachable states of graphs of unbounded size and nesting, cannot be settled on examples; the deletion of the silent tasks rewires flows in an order that depends on the nesting.", "anchors": ["pm4py/convert.py:convert_to_bpmn", "pm4py/discovery.py:discover_bpmn_inductive", "pm4py/objects/conversion/process_tree/variants/to_bpmn.py:recursively_add_tree", "pm4py/objects/conversion/process_tree/variants/to_bpmn.py:delete_tau_transitions", "pm4py/objects/conversion/process_tree/variants/to_bpmn.py:apply"]}
{"id": "C73", "title": "Social network metrics: handover and working together are exact shares; subcontracting reports one single occurrence per resource", "statement": "For every log (and every order of its variants): discover_handover_of_work_network has an entry for (a, b) exactly if a hands over to b in some trace (directly for beta = 0), with the weight of these handovers divided by the weight of all handovers; for beta ≥ 0 the values sum up to 1, and an exception is raised exactly if no trace has two events. With beta = 0 the value is the share of the directly-follows pairs. discover_working_together_network of an event log has an entry exactly for two different resources that share a trace, with the share of the traces that have both; for a data frame the value is divided by the number of events instead. discover_subcontracting_network has, for each resource that subcontracts, exactly the entries of the first subcontracting found: all others are ignored. Normalization divides by the largest absolute value, so that it becomes 1.", "quantifier": "all logs, all beta, all distances n, all orders of the variants", "why_tests_cant": "The entries are sums over all pairs of positions of all traces, computed on variants with multiplicities and nested dictionaries; that they are the right sums for all logs is an induction. The ignored subcontractings only show in logs with several of them.", "anchors": ["pm4py/org.py:discover_handover_of_work_network", "pm4py/org.py:discover_working_together_network", "pm4py/org.py:discover_subcontracting_network", "pm4py/algo/organizational_mining/sna/variants/log/handover.py:apply", "pm4py/algo/organizational_mining/sna/variants/log/working_together.py:apply", "pm4py/algo/organizational_mining/sna/variants/log/subcontracting.py:apply", "pm4py/algo/organizational_mining/sna/variants/pandas/working_together.py:apply", "pm4py/algo/organizational_mining/sna/algorithm.py:apply"]}
{"id": "C74", "title": "Flattening of object-centric logs: cases are the objects of the type with their events; OC-DFG edges are the consecutive events of objects", "statement": "For every consistent object-centric log in which an event and an object are related at most once: ocel_flattening to an object type has exactly one row for each event and each related object of the type; its cases are the objects of the type that have an event, and the events of a case are the events of the object in the order of the log. The edges of discover_ocdfg hold, for each object type and each pair of activities, exactly the triples (event, next event, object of that type) without repetitions, and an edge is missing exactly if there is none; the number of triples is the frequency of the pair in the directly-follows graph of the flattened log. With two relations (qualifiers) of the same event and object both fail.", "quantifier": "all object-centric logs, all object types, all pairs of activities", "why_tests_cant": "The edges come from one pass over all relations with a history per object, the flattened log from two joins; that the two agree is a statement about all interleavings of the lifecycles of all objects.", "anchors": ["pm4py/ocel.py:ocel_flattening", "pm4py/ocel.py:discover_ocdfg", "pm4py/objects/ocel/util/flattening.py:flatten", "pm4py/statistics/ocel/edge_metrics.py:find_associations_per_edge"]}
{"id": "C75", "title": "Minimum self-distances, their witnesses and rework counts are exact, for event logs and for data frames", "statement": "For every log: get_minimum_self_distances maps an activity to d exactly if d is the smallest number of activities between two of its occurrences in one trace, and has no entry exactly if no trace has it twice; for a data frame the result is that of its cases, although the implementation groups by the concatenation of case identifier and activity, whatever collisions this has. get_minimum_self_distance_witnesses lists exactly the activities between two occurrences at that distance (entries exactly for positive distances), but only for the default activity key: with another key the witnesses are computed on the wrong attribute. get_rework_cases_per_activity counts exactly the traces that have the activity at least twice, equally for data frames; the rework of a case is zero exactly if no activity is repeated.", "quantifier": "all logs, all data frames, all activities, all concatenation functions", "why_tests_cant": "The minimum over consecutive positions must be the minimum over all pairs of positions, and colliding keys must never change it; both range over all traces and all identifiers.", "anchors": ["pm4py/stats.py:get_minimum_self_distances", "pm4py/stats.py:get_minimum_self_distance_witnesses", "pm4py/stats.py:get_rework_cases_per_activity", "pm4py/algo/discovery/minimum_self_distance/variants/log.py:apply", "pm4py/algo/discovery/minimum_self_distance/variants/pandas.py:apply", "pm4py/algo/discovery/minimum_self_distance/utils.py:derive_msd_witnesses", "pm4py/statistics/rework/log/get.py:apply", "pm4py/statistics/rework/pandas/get.py:apply", "pm4py/statistics/rework/cases/log/get.py:apply"]}
{"id": "C76", "title": "Eventually-follows graphs and concurrent activities count exactly the pairs of events, except for data frames of concurrent activities", "statement": "For every log: discover_eventually_follows_graph maps (a, b) to the number of pairs of events of a trace, with activities a and b, where the second starts when the first has ended (for one time stamp and ordered traces: all pairs of an event and a later one), with no entry for zero; event log and data frame agree if the events have one time stamp, but for events that start together the event log takes the order of the trace and the data frame the order of completion. The concurrent activities of an event log are exactly the pairs of events that are active at the same time (for a positive time with strict), although the search stops at the first event that is not, provided no event ends before it starts; keys are sorted pairs. For a data frame, the counts of the two orders in which a pair starts overwrite each other instead of being added.", "quantifier": "all logs, all pairs of activities, strict and not strict", "why_tests_cant": "The counts range over all pairs of positions after a stable sort, and the early exit of the loop is only right because of the sorting; the overwritten counts need both start orders in one log.", "anchors": ["pm4py/discovery.py:discover_eventually_follows_graph", "pm4py/statistics/eventually_follows/log/get.py:apply", "pm4py/statistics/eventually_follows/pandas/get.py:apply", "pm4py/statistics/concurrent_activities/log/get.py:apply", "pm4py/statistics/concurrent_activities/pandas/get.py:apply", "pm4py/algo/discovery/dfg/adapters/pandas/df_statistics.py:get_partial_order_dataframe", "pm4py/algo/discovery/dfg/adapters/pandas/df_statistics.py:get_concurrent_events_dataframe"]}
{"id": "C77", "title": "The heuristics net has exactly the strong connections and the loops of length two; nodes are the connected activities", "statement": "For every event log and all parameters of discover_heuristics_net: the connections of the net are exactly the pairs of activities with at least min_act_count occurrences that directly follow each other at least min_dfg_occurrences times with a dependency measure of at least the threshold, and both directions of the loops of length two (starting at an activity that has such a connection, with a loop measure reaching the threshold, and no dependency in either direction); each connection exists once, with its dependency measure and frequency. The nodes are exactly the activities with a connection, or all activities of the log if there is none. The AND measures of a node are those of the pairs of its connections that reach the threshold. The dependency measure lies between -1 and 1 and is antisymmetric. The direct successions considered are exactly those that are not noise at one of their activities. Not every frequent activity is in the net, and the thresholds need not hold for the second direction of a loop.", "quantifier": "all logs, all parameters, all pairs of activities", "why_tests_cant": "Several dictionaries and thresholds interact; the claim is an equivalence over all pairs of activities, and the missing activities need a part of the log without any one-directional succession.", "anchors": ["pm4py/discovery.py:discover_heuristics_net", "pm4py/algo/discovery/heuristics/variants/classic.py:apply_heu", "pm4py/algo/discovery/heuristics/variants/classic.py:calculate", "pm4py/objects/heuristics_net/node.py:calculate_and_measure_out", "pm4py/objects/heuristics_net/node.py:calculate_and_measure_in", "pm4py/objects/heuristics_net/node.py:calculate_loops_length_two", "pm4py/algo/discovery/dfg/variants/freq_triples.py:freq_triples", "pm4py/algo/filtering/dfg/dfg_filtering.py:clean_dfg_based_on_noise_thresh"]}
{"id": "C78", "title": "The maximal decomposition of a Petri net splits it into components that together have exactly its behaviour", "statement": "For every accepting Petri net with unique names, maximal_decomposition puts every place, every silent transition and every arc (of weight 1) into exactly one component; without duplicated labels, places and silent transitions are in one component only if arcs between them force it, and a visible transition is in the components of its places. A sequence of transitions fires in the net exactly if its part fires in every component, and (without duplicated labels) a trace of labels is accepted by the net exactly if every component accepts its part of the trace. Merging all components gives the net back, except for visible transitions without arcs. With duplicated labels the decomposition is not valid (transitions with the same label are not kept together), and arc weights are lost.", "quantifier": "all accepting Petri nets, all markings, all sequences and words", "why_tests_cant": "The claim is an equivalence over all firing sequences and traces of all nets; its proof needs the composition of the runs of the components.", "anchors": ["pm4py/analysis.py:maximal_decomposition", "pm4py/objects/petri_net/utils/decomposition.py:decompose", "pm4py/objects/petri_net/utils/decomposition.py:get_graph_components", "pm4py/objects/petri_net/utils/decomposition.py:merge_comp", "pm4py/objects/petri_net/utils/decomposition.py:merge_sublist_nets"]}
{"id": "C79", "title": "A live event stream delivers every event to every observer exactly once, and stopping it terminates, for every schedule", "statement": "For every schedule of the threads (producers, delivery thread, pool workers, callers of stop) of a live event stream that is started before it is stopped: when stop has returned, every observer has received every accepted event exactly once; accepted are all events appended before the stream is finished, later ones are dropped; at no time has an observer received an event more often than it was appended. With one worker the observers receive the events in the order in which they were appended, so streaming DFG discovery gives the graph of the appended events. If stop is called once, the stream always comes to rest with stop returned and the delivery thread ended (no lost wake-up). Refuted: with the default six workers events of a case can be received in the wrong order; with two concurrent calls of stop the delivery thread can wait forever; stop on a stream never started, with events, never returns; stop before start makes the stream lose an event and block.", "quantifier": "all schedules (any number of producers, events, observers, workers, stop calls)", "why_tests_cant": "The claims are about all interleavings of the threads; lost wake-ups and reordered deliveries need rare schedules that tests do not produce.", "anchors": ["pm4py/streaming/stream/live_event_stream.py:LiveEventStream.append", "pm4py/streaming/stream/live_event_stream.py:LiveEventStream._deliver", "pm4py/streaming/stream/live_event_stream.py:LiveEventStream.start", "pm4py/streaming/stream/live_event_stream.py:LiveEventStream.stop", "pm4py/streaming/algo/interface.py:StreamingAlgorithm.receive"]}
{"id": "C80", "title": "Streaming footprints conformance judges every case by its own events only", "statement": "After every history of events (of any interleaved cases) and terminations, the status of a case is True exactly if its events since the last termination, from the first activity known to the footprints on, are all known, begin with a start activity and have only allowed neighbours; terminate also requires the last known activity to be an end activity and forgets the case; a case without known activity has no status and no row in the diagnostics. The answers depend only on the own events of the case. Refuted: activities unknown to the footprints at the beginning of a case are not counted (the deviation counter is set back), so the case is reported as fitting.", "quantifier": "all footprints, all histories of events and terminations", "why_tests_cant": "The claim is about all interleavings of all streams; tests feed single logs.", "anchors": ["pm4py/streaming/algo/conformance/footprints/variants/classic.py:FootprintsStreamingConformance.verify_footprints", "pm4py/streaming/algo/conformance/footprints/variants/classic.py:FootprintsStreamingConformance.terminate", "pm4py/streaming/algo/conformance/footprints/variants/classic.py:FootprintsStreamingConformance.get_status", "pm4py/streaming/algo/conformance/footprints/variants/classic.py:FootprintsStreamingConformance._current_result"]}
{"id": "C81", "title": "Streaming temporal conformance reports exactly the deviations of offline checking, case by case", "statement": "After every sequence of events, streaming conformance checking with a temporal profile reports for every case, up to order, exactly the deviations that offline conformance checking finds in the events of the case in arrival order; cases without deviations are not reported; the report of a case depends only on its own events; a new event only adds the deviations it forms with earlier events of its case, in their order; incomplete events have no effect.", "quantifier": "all profiles, values of zeta and streams of events", "why_tests_cant": "The claim compares two algorithms on all interleavings of all streams.", "anchors": ["pm4py/streaming/algo/conformance/temporal/variants/classic.py:TemporalProfileStreamingConformance._process", "pm4py/streaming/algo/conformance/temporal/variants/classic.py:TemporalProfileStreamingConformance.check_conformance", "pm4py/streaming/algo/conformance/temporal/variants/classic.py:TemporalProfileStreamingConformance._current_result", "pm4py/algo/conformance/temporal_profile/variants/log.py:apply"]}
{"id": "C82", "title": "Lifecycle logs and interval logs convert into each other without losing executions", "statement": "to_interval on a lifecycle log (not empty, first event without start timestamp) keeps the traces, makes exactly one interval event of every complete event and matches every complete event with the earliest earlier unmatched start event of the same activity and instance (an unmatched one gets duration zero); the events are sorted by start; in logs sorted by time no interval ends before it starts. Both conversions are idempotent. to_lifecycle succeeds on interval logs, and back again each activity/instance has the same starts and the same ends; if no interval of the same activity and instance is nested in another one, the same events come back. Refuted: nested intervals of the same activity are torn apart; an interval log whose first trace is empty is taken for a lifecycle log and loses its start timestamps.", "quantifier": "all logs with integer timestamps, activities, instances and transitions", "why_tests_cant": "The claims quantify over all interleavings of start and complete events in all traces.", "anchors": ["pm4py/objects/log/util/interval_lifecycle.py:to_interval", "pm4py/objects/log/util/interval_lifecycle.py:to_lifecycle", "pm4py/objects/log/util/sorting.py:sort_timestamp_trace"]}
{"id": "C83", "title": "The performance spectrum has one point for every occurrence of the chosen activities", "statement": "For a list of at least two activities (fewer are an error) the performance spectrum of a log has exactly one point for every position in a case at which, among the events with these activities and in stable time order, the activities follow each other, with the times of these events; the points are sorted by the first time. With more points than the sample size, exactly that many are returned, all different occurrences in the same order, one from each of equal blocks, and never an index error. The dataframe variant loses no occurrence and has the same points if no activity name is a proper prefix of another; it samples without inventing points. Refuted: in general the dataframe variant compares concatenated names, so that aa, a counts as an occurrence of a, aa.", "quantifier": "all event lists, activity lists, sample sizes, and random samples", "why_tests_cant": "Quantifies over all logs, sample sizes and random choices; tests compare a few known logs.", "anchors": ["pm4py/algo/discovery/performance_spectrum/algorithm.py:apply", "pm4py/algo/discovery/performance_spectrum/variants/log.py:apply", "pm4py/algo/discovery/performance_spectrum/variants/dataframe.py:apply", "pm4py/util/points_subset.py:pick_chosen_points_list", "pm4py/objects/log/util/basic_filter.py:filter_log_events_attr"]}
{"id": "C84", "title": "Removing useless exclusive gateways from a BPMN diagram keeps everything else", "statement": "If every node can be reached from a node that is not an exclusive gateway (as the start event), reducing the exclusive gateways ends, whatever the order of the node set; the result has exactly the nodes other than the exclusive gateways with one incoming and one outgoing flow, with one flow for every flow leaving such a node, to the node where this flow leads through removed gateways; the result does not depend on the order, has no reducible gateway, and the remaining nodes are connected by paths as before. Refuted without the assumption: two exclusive gateways connected only with each other make the function loop for ever.", "quantifier": "all diagrams (nodes, flows, parallel flows, loops) and all orders of the nodes", "why_tests_cant": "Quantifies over all diagrams and all iteration orders of a Python set, including termination.", "anchors": ["pm4py/objects/bpmn/util/reduction.py:reduce_xor_gateways", "pm4py/objects/bpmn/util/reduction.py:apply", "pm4py/objects/bpmn/obj.py:BPMN.add_flow", "pm4py/objects/bpmn/obj.py:BPMN.remove_flow", "pm4py/objects/bpmn/obj.py:BPMN.remove_node"]}
{"id": "C85", "title": "Converting an accepting Petri net to BPMN keeps its complete runs", "statement": "For every net in which each transition has a place before and after it (arcs not weighted, at most one token per place in the initial and final marking), the BPMN diagram built by the conversion accepts exactly the words of the net: the token game from the start event to the end event has the same sequences of activities as the firing sequences from the initial to the final marking. The diagram has one task for every labelled transition; every reachable state corresponds to a reachable marking with no more tokens. Refuted: the diagram can deadlock where the net cannot, because the gateways of two shared places choose different transitions.", "quantifier": "all accepting nets, all runs of nets and diagrams (unbounded, not necessarily safe)", "why_tests_cant": "Equality of two languages over all nets and all runs.", "anchors": ["pm4py/objects/conversion/wf_net/variants/to_bpmn.py:apply"]}
{"id": "C86", "title": "The reduction of exclusive gateways does not change the behaviour of a BPMN diagram", "statement": "For every diagram, removing exclusive gateways with one incoming and one outgoing flow, in any order and any number, gives a diagram with the same complete runs (sequences of activities of the token game from the start event to the end event). So the BPMN diagram returned for an accepting Petri net, after the reduction, accepts exactly the words of the net.", "quantifier": "all diagrams with exclusive and parallel gateways and tasks, all orders of removal, all runs", "why_tests_cant": "Equality of two languages over all diagrams, all runs and all orders of removal.", "anchors": ["pm4py/objects/bpmn/util/reduction.py:reduce_xor_gateways", "pm4py/objects/conversion/wf_net/variants/to_bpmn.py:apply"]}
{"id": "C87", "title": "Lead and cycle time of interval logs split the elapsed business time into busy and wasted time", "statement": "For every trace of an interval log and every work calendar, at every event the lead time is the cycle time plus the wasted time and the ratio is their share, between 0 and 1. If no execution starts in the moment in which an earlier one ends, the cycle time is exactly the business time in which at least one execution so far was running, the lead time the business time from the start of the trace to the latest end so far, the wasted time the rest, and the wasted time of an event the business time between the latest end before and its start. Refuted without that condition: an execution that starts exactly when the previous one ends is not counted in the cycle time or in the lead time.", "quantifier": "all traces of intervals ordered by start time, all work calendars, all events", "why_tests_cant": "A measure identity over all sets of intervals; tests have distinct time stamps and miss the boundary.", "anchors": ["pm4py/objects/log/util/interval_lifecycle.py:assign_lead_cycle_time"]}
{"id": "C88", "title": "Generalization and simplicity are normalized and depend only on what they should", "statement": "For every net and every list of replayed traces, the generalization is one minus the average, over the transitions of the net, of the inverse square root of their numbers of occurrences (1 for a transition that never occurs), it lies between 0 and 1, and replaying more traces never lowers it. The arc-degree simplicity of every net depends only on the numbers of its places, transitions and arcs (average degree = twice the arcs over the nodes), is positive and at most 1, and is 1 exactly if the average degree is not above the baseline.", "quantifier": "all nets, all replay results, all baselines", "why_tests_cant": "Ranges, monotonicity and a closed form over all nets and logs.", "anchors": ["pm4py/algo/evaluation/generalization/variants/token_based.py:get_generalization", "pm4py/algo/evaluation/simplicity/variants/arc_degree.py:apply"]}
{"id": "C89", "title": "Training/test splits, prefixes and prediction targets keep every case intact", "statement": "For every log, every shuffle and every fraction, the training and the test log together are the log, each trace in exactly one of them; the training log has min(n, floor(n * fraction) + 1) traces (refuted: that it contains the given fraction; with fraction 0 it is not empty, with 0.8 the test log of four traces is empty). For data frames every row is in exactly one part and all rows of a case in the same. The prefixes of length n of an event log are the first n events of every trace; for a data frame, a subsequence of the rows with the first n rows of every case, however the cases are interleaved. The next-activity target of an event is the indicator vector of the activity of the next event (zero after the last event and in the padding), the remaining-time target the time to the last event, not negative and not increasing for ordered traces.", "quantifier": "all logs and data frames, all shuffles and random draws, all fractions, lengths and paddings", "why_tests_cant": "Partition and exactness over all random choices and all interleavings of cases.", "anchors": ["pm4py/objects/log/util/split_train_test.py:split", "pm4py/ml.py:split_train_test", "pm4py/ml.py:get_prefixes_from_log", "pm4py/objects/log/util/get_prefixes.py:get_prefixes_from_log", "pm4py/algo/transformation/log_to_target/variants/next_activity.py:apply", "pm4py/algo/transformation/log_to_target/variants/remaining_time.py:apply"]}
{"id": "C90", "title": "The disconnected performance spectrum of an event log consists of the neighbouring pairs only", "statement": "For every event log and activity list, the points of the disconnected performance spectrum (before sampling) are exactly the pairs of neighbouring events of a case (after filtering and sorting) whose activities are neighbours in the list, each occurrence once, ordered by time. Refuted: that connected pairs are joined into longer segments, as the code intends; no point has more than two events, because a generator object is looked up in a set of tuples.", "quantifier": "all event logs, all activity lists", "why_tests_cant": "Exactness over all logs; existing tests only check that the call returns.", "anchors": ["pm4py/algo/discovery/performance_spectrum/variants/log_disconnected.py:apply"]}
{"id": "C91", "title": "Renaming activities to letters is reversible, for any number of activities", "statement": "For every column of activities, different activities get different names, however many there are; the returned dictionary turns the renamed column into the original one; the names are non-empty strings of the letters A to Z, and exactly the first 26 activities get one letter.", "quantifier": "all columns, all numbers and orders of activities", "why_tests_cant": "Injectivity of a numbering without an upper bound.", "anchors": ["pm4py/objects/log/util/activities_to_alphabet.py:apply"]}
{"id": "C92", "title": "Role discovery divides the activities and stops at the similarity threshold", "statement": "For every log and threshold, the aggregation of roles terminates, whatever pair is chosen among equally similar ones. The discovered roles divide the activities: every activity is in exactly one role, no role is empty, and the number of a resource in a role is the number of events of the resource with an activity of the role. The aggregation ends exactly when no two roles are more similar than the threshold. The similarity is the sum of the smaller over the sum of the larger shares of the resources; it is symmetric and between 0 and 1.", "quantifier": "all logs with resources, all thresholds, all orders of aggregation", "why_tests_cant": "Termination and a partition over all logs and all choices between equally similar pairs.", "anchors": ["pm4py/algo/organizational_mining/roles/common/algorithm.py:aggregate_roles_iteration", "pm4py/algo/organizational_mining/roles/common/algorithm.py:aggregate_roles_algorithm", "pm4py/algo/organizational_mining/roles/common/algorithm.py:get_initial_roles", "pm4py/algo/organizational_mining/roles/common/algorithm.py:find_role_similarity"]}
{"id": "C93", "title": "Moving constant attributes to the trace level loses no value", "statement": "For every log with at least one trace, moving constant event attributes to the trace level succeeds; the moved names are exactly those that are not of a standard extension, are no attribute of a trace yet and have one and the same value in all events of each trace; every event loses exactly those, and the value of every name, read from the event or else from its trace, is the same as before. Refuted: that it works for the empty log (it is an error).", "quantifier": "all logs, traces, events and attribute names", "why_tests_cant": "Preservation of all values over all logs.", "anchors": ["pm4py/objects/log/util/move_attrs_to_trace.py:apply"]}
{"id": "C94", "title": "Average time between case starts and case ends", "statement": "For every log, the average time between case starts is the (business) time from the earliest to the latest start over the number of cases minus one, and 0 for fewer than two cases; it does not depend on the order of the traces; the same for the case ends if the first and last events have time stamps; for at least two cases the data frame variant gives the value of the log of its cases. Refuted: the average end time is an error if only the first event of a trace has a time stamp (the check looks at the first event), and for one case the log gives 0 but the data frame gives no number.", "quantifier": "all logs and data frames, all work calendars", "why_tests_cant": "A telescoping identity and order independence over all logs.", "anchors": ["pm4py/statistics/traces/generic/log/case_arrival.py:get_case_arrival_avg", "pm4py/statistics/traces/generic/log/case_arrival.py:get_case_dispersion_avg", "pm4py/statistics/traces/generic/pandas/case_arrival.py:get_case_arrival_avg"]}
