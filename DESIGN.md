# Design: a Lean 4 model of pm4py-core and proofs about it

## Trusted base

* Lean 4.33.0's kernel; the axioms `propext`, `Classical.choice`, `Quot.sound` at most. No own axioms,
  no compiled-code tactics.
* The reading of the Python source: every definition in the model cites file and lines in /repo.
* Python built-ins are modelled, not verified: `dict`/`Counter`/`set` as association lists / lists without
  duplicates (iteration order = any list order, since theorems quantify over the list), `heapq` through its
  contract (pop returns a minimal element w.r.t. `__lt__`), `sorted` as a stable sort, networkx'
  `descendants`, `ancestors`, `connected_components` as reachability algorithms.
* Floating point (`1.0 - noise_threshold` at noise 0, ratios) is modelled with exact arithmetic or excluded.
* Timeouts (`max_elab_time`, `max_align_time_trace`) are not modelled: theorems are about runs that finish.
* pandas/polars dataframes are modelled as lists of rows / lists of traces.

## Layout

`lean/Verif/<Area>/Model.lean` (definitions citing code), `Spec.lean` (independent specification),
`Proofs*.lean` (lemmas), `Theorems.lean` (the property theorems, each with a non-vacuity example).

## Per-property plan

| id | model | proof |
|----|-------|-------|
| C01 | markings as association lists, `is_enabled`/`execute`/`weak_execute` branch by branch | fold invariants over arc lists |
| C02 | `Marking` methods on association lists with unique keys | pointwise characterisation of each operation |
| C03 | worklist loop of `marking_flow_petri` with fuel | loop invariant (closed/frontier), measure = unexplored reachable markings |
| C04 | `IncidenceMatrix` over index lists | induction over firing sequences; witness for weights |
| C05 | `construct` / `construct_cost_aware` / trace net | simulation in both directions |
| C06 | `__search` over an abstract priority queue (contract) | Dijkstra invariant over states and their reachability; weights only through the unit-weight hypothesis of C05 |
| C33 | `dijkstra_less_memory` state by state (heap through its contract, states keep their parents, `closed` = best position per marking) | ghost list of visited states: every successor of a visited state is covered by `closed` or the open set at the same or a later position; at exhaustion a complete run would be followed; measure (open states, remaining positions per marking) for termination; optimality refuted by evaluation |
| C38 | the two nested loops of `__search` (`state_equation_a_star`) with `SearchTuple`s, derived heuristics and trust flags; the LP solver is a function with the contract `LpOk` (exact optimum of the marking equation, `(sys.maxsize, zeros)` if infeasible, no entry within the 0.001 tolerance below an integer); heap by the contract "least f first", ties arbitrary | invariant: every optimal run is covered by an open tuple whose f does not exceed its cost, since a solution minus a fired transition solves the shifted equation; termination by a bound on re-evaluations; LPs in closed form for the examples |
| C39 | `apply_trace` after the search, variants structure and `__form_alignments`, `evaluate`; floor division on integers, floats as rationals | the worst alignment bounds the optimal one; an alignment cheaper than one deviation is a run with the labels of the trace; dictionary fold for logs |
| C40 | the four dictionaries, the graph as an edge list, the loops over discardable activities / edges, the final clean-up; closure loops on sets as lists; exact rationals | the graph stays the graph of the dictionaries; minimality is monotone under removal; one restriction reaches the fixed point of the to/from/contain loops; counting open pairs for the closure loop |
| C41 | every event-log filter loop on traces as lists of events, attributes through accessors that may miss, times as integers | each loop is a `filter`; per-filter equivalence of the Boolean test with a statement on positions/subsequences; inductive segments for `between` |
| C42 | dataframes as lists of rows; `groupby`/`merge`/`shift`/`isin`/`cumcount`/`np.unique` by their meaning, sorting as a stable insertion sort | the cases kept by `isin` are those whose rows satisfy the trace property; joins = subsequences; contiguity of sorted or grouped rows; witnesses by evaluation |
| C43 | the grouping loop, the flattening loop, `str.replace`/`startswith` on lists of characters, dictionaries in insertion order; sharing of events as a returned changed log | invariant: after some rows the dictionary holds the case-wise restriction of the rows; dictionary lemmas (`set` of new keys appends) |
| C44 | the two conversion loops as numbered transition lists of a state machine; the playout as a transition system on (heap, yielded) with an arbitrary order of the heap and exact rationals instead of sums of logarithms | one-token invariant turns firing sequences into words of an automaton; enumeration of the tree of prefixes is invariant under the order of popping (permutation), measure: missing occurrences |
| C45 | the two nested loops with ranges fixed at their start, the checks, the maximizer, the net; sets as Finset, causal/parallel relations shared with C24-C26 | induction on \|A\|+\|B\|: the pair without the last of its single pairs (in list order) is built before the round of this single pair, which adds it; soundness invariant for merging |
| C46 | `get_ex_seq` as the set of its possible values (every random choice), the shuffled list of child indexes with `pop(0)`, `ret` accumulation of the loop | induction on the tree; popping along a permutation of the index list is exactly shuffling the child traces; hiding silent leaves commutes with sequence, shuffle and loop |
| C47 | shortest/longest lengths per node, all five playout functions with their work lists, sorting, breaks and limits; `while` loops with fuel; the dictionary along the bottom-up list is the recursion on the tree (C34 says when the list is complete) | soundness by invariants for every limit; termination by weights; completeness: remaining lengths bound what the rest of the tree adds, breadth-first search with closed set keyed by the first (smallest) number of loops, interleavings by suffix lists |
| C48 | recursively_add_tree/apply of the POWL conversion (Powl/Model.lean) on numbered places and transitions, with the transitive reduction of C23 and the reductions of C15; POWL models as values (Powl/Lang.lean), children of a partial order identified with their positions (they are different objects; equal-by-value children made of shared Transition objects are not modelled) | a partial-order node is a composition of blocks (Powl/BlockPo*.lean): invariant relating markings to phases of the children, replay of every tagged interleaving; the construction is shown to yield such a composition for any acyclic relation (rank = number of predecessors), then C14/C15/C31 machinery |
| C49 | StrictPartialOrder.simplify and OperatorPOWL.simplify (Powl/Simplify.lean) with the positions of nodes in place of objects; recursion by fuel (a simplified choice is simplified again) | tagged-interleaving languages over arbitrary index types (Powl/PoG.lean): nesting lemma (an order of orders is one lexicographic order) and renaming of indices; a unique start/end node reaches all inner nodes (rank), so the closure of the merged edges is the lexicographic order; induction on the fuel for termination, validity, labels, size |
| C50 | the POWL inductive miner (Powl/Miner.lean): base cases, empty traces, the maximal and the brute-force partial order cut, the cuts and fall-throughs of C04's model wrapped into POWL nodes, recursion by fuel; exceptions as `none`. Not modelled: DYNAMIC_CLUSTERING (float ratio), filtering thresholds | each step preserves fitness (the projection of a trace on the groups is an interleaving respecting the order), labels, validity (Powl/MinerSteps.lean); well-founded measure of C04 for termination, and the exception characterised through the reachable sublogs (Powl/MinerRec.lean); C48/C49 for the net and the simplification |
| C51 | the four rule filters on event logs and on dataframes (Ltl/Model.lean): positions, products and joins as in the code; exceptions as `none`; groupby.last as the last non-missing value; timestamps rational | the product of position lists is characterised with Forall₂ and ascending position lists are sublists; the joined rows are characterised by induction on the values as ascending chains of rows of one case, hence sublists of the case's rows |
| C52 | the whole search of alignments/dfg/variants/classic.py (DfgAlign/Model.lean): states with their predecessors, closed positions per node, the restrictions on model and log moves, internal and real costs, the moves read back, the fitness of apply_log; the heap by its contract (a state of least g is taken), fuel for the loop, the node names generated by uuid4 are constructors; not modelled: float costs, dijkstra_to_end_node (unused), the memo table of apply_log | paths of moves; exchange lemma: a pruned state y dominated by an expanded state c (same node, later position, not more expensive) either shares a synchronous event with c's path, or counting the synchronous and the log moves on both sides (with the minimality of the optimum applied to c's path without these events) gives a completion of c that is as good; well-founded induction on (events left, length of the completion); lexicographic measure for termination |
| C53 | the whole conversion (WfTree/Model.lean): the workflow-net check on the graph of names, the four requirements and reductions, the insertion of silent transitions, the loop, folding and sorting (models of C10); transitions carry trees instead of their text (printing and parsing are C13); networkx strong connectivity by its contract; not modelled: the names of new objects (numbers instead), the debug option | semantics in which a transition takes time (start, activities, stop), so that a transition labelled with a tree can be compared with its parts; each reduction is a pair of simulations that transport safeness backwards; invariants: reachability of all places from the source, or a place without producers that can never disappear again; for single activities the semantics equals the token game; a transition that is left alone is safe |
| C54 | the loop of `reduce` on node objects (paths), overwritten slots, `list.index` with structural equality, footprints dictionary, then `fold` (`TreeRed/Model.lean`) | restricted languages are preserved by all operators; counting invariant (overwritten slots vs. processed children with the same content) shows that `index` always finds a slot and that exactly the removable nodes are replaced, in every set order; refuted for duplicate labels |
| C55 | `apply_recursive` with the checks of the POWL constructors (`TreePowl/Model.lean`) | structural induction; linear extensions of the chain are concatenations, those of the empty order shuffles; composed with C48 for nets; refuted for interleaving |
| C56 | `pt_to_regex` on code points with the shared dictionary (`Regex/Model.lean`); a parser of patterns and their languages as specification (`Regex/Spec.lean`) | the parser is compositional on the strings produced; languages by structural induction; injective dictionary; counterexamples for silent do parts, ternary loops, interleaving |
| C57 | export as list of elements (BFS order, identifiers, edges), import on a heap of objects with the loop edits (`Ptml/Model.lean`); XML text not modelled | breadth-first search by levels: the edges of a node are its children in order; heap invariants; counterexamples for ternary loops |
| C58 | export_line_by_line, import_dfg_from_rows / _from_string / apply at character level (str.strip, split, readlines, universal newlines, %d, int) | decimal printing/parsing inverse by strong induction; each row parsed back; rows recovered from the concatenated text; dictionaries rebuilt by insertion; general result with stripped names, round trip as a corollary |
| C59 | export_petri_tree (places, transitions, guards, variables, arcs, markings, ProM 5 option) and import_net_from_xml_object on XML element trees with tag tests by substring/suffix; add_arc_from_to; discover_final_marking | every element read back by evaluation of the folds over its children; dictionaries id→object by the uniqueness of names; filters of the page's children; counterexamples evaluated |
| C60 | line_by_line exporter as a list of indented tags and as text; chunk_regex importer: blocks of bytes, UTF-8, the regular expression split, the pending last piece, the stack machine; dates and floats through an abstract codec | split of a concatenation related to the splits of the parts; simulation of the tags by the stack machine; mutual induction on attributes; counterexamples evaluated |
| C61 | line_by_line importer: splitting lines at quotes, unescape, values_dict, selection, MAX_TRACES | invariant of values_dict (keys equal to values under ==); induction on lines |
| C62 | iterparse importer on start/end events with an oracle for the visibility of children; event stream of an exported log as specification of lxml | induction on nested attributes with contexts for the parent; stop flag for MAX_TRACES |
| C63 | WOFLAN steps 1-13 as relations (any pop order), enabled_markings on arrays with infinity, array2string keys, minimal coverability tree with its acceleration and pruning, merged graph, dead tasks, reachability graph, short-circuited net, name graph, S-component test; the invariants, well-handledness and weighted cover are oracles | loop invariants for both graphs; boundedness by pumping; Dickson's lemma (Mathlib) for termination on sound nets; soundness ⇔ short-circuited net bounded, connected and live; counterexample nets checked by a verified certificate checker |
| C64 | murata.apply_reduction: the rows of the integer programs as built (accumulated over places), feasibility as existence of a non-negative integer solution, redundant set, removal of places and marks; at most one arc per direction | linear invariant of the markings from each solution (Farkas-style weights), downward induction along the list of redundant places; counterexample nets with explicit solutions |
| C65 | conversion/bpmn/variants/to_petri_net.py: places per flow, nodes_entering/nodes_exiting (place or transition), node, start and end transitions, flow arcs, inclusive-gateway skips (with the choice of the nearest entry place as a parameter), simple reduction (from C15), removal of isolated places; not modelled: message flows, associations, use_id, return maps | specification: token game on flows (Bpmn/Spec.lean); place elimination (Bpmn/Elim.lean): entry and exit places of a node with exactly one transition between them are eliminated one hub after the other (language and soundness), then C15 for the reduction |
| C66 | algo/evaluation/precision/utils.py (prefixes, fake log, `__search`), variants/align_etconformance.py, etconformance_token.py (sums; the token replay itself is a parameter), align_utils.get_visible_transitions_eventually_enabled_by_marking; not modelled: easy-soundness check, multiprocessing, floats (exact fractions), place and transition names (identities) | dictionaries as multisets of (prefix, next); Dijkstra invariant with the set of stop states of minimal cost, product runs projected on the net (C05); queue invariant for eventually enabled transitions |
| C67 | algo/discovery/transition_system/variants/view_based.py (views, state construction; states are positions, the set order is a parameter); not modelled: event data (`include_data`), grouping of data frames | invariant of the loop over the steps (sound, complete, unique names), paths by induction |
| C68 | statistics/traces/cycle_time/util/compute.py, log/get.py; integer ticks instead of floats | sweep invariant: last busy period, last end, covered slots counted |
| C69 | util/business_hours.py (unification of slots, weeks loop); whole seconds, naive times since a Monday 0:00; not modelled: time zones (dropped by the code), work calendar (unused by the code) | counting lemmas, induction over weeks, invariant of the unification (disjoint, same seconds up to one-second gaps) |
| C70 | algo/discovery/batches/utils/detection.py (`heapq.heappush` as code, `heapify`, `sort` and the comparison of tuples as parameters); integer times; not modelled: grouping by activity and resource | partition invariant under joins and permutations; fixpoint of the near pass |
| C71 | algo/discovery/temporal_profile/variants/log.py, algo/conformance/temporal_profile/variants/log.py; integer time stamps, exact real numbers; not modelled: floating point, business hours (C69), data frame variant | dictionary fold = observations of all pairs of positions; Samuelson's inequality |
| C72 | objects/conversion/process_tree/variants/to_bpmn.py:119-263 (recursively_add_tree, delete_tau_transitions, apply); object identities are numbers; not modelled: the random identifiers, process ids, layout, the names of the gateways | the graph without silent tasks is a composition of the blocks of Verif/Petri (language and soundness by structural induction, new loop block); invariant of the deletion loop: contracting the remaining silent tasks gives a graph with the language of the tree; end to end with C07-C10 and C65 |
| C73 | algo/organizational_mining/sna/variants/{log,pandas}/{handover,subcontracting,working_together}.py, sna/algorithm.py; exact rational numbers; not modelled: floating point, jointactivities (Pearson correlation), the positions in the sorted list of resources | sums over variants with multiplicities = sums over traces; fold over nested dictionaries; closed form of the loops as double sums over positions |
| C74 | objects/ocel/util/flattening.py (flatten), statistics/ocel/edge_metrics.py (find_associations_per_edge); pandas merge and groupby by their meaning; not modelled: the aggregations and performance values of the OC-DFG, its start and end activities | induction over the visited pairs with a closed form (last visit of the object); the visits of an object are its lifecycle; counting over cases |
| C75 | algo/discovery/minimum_self_distance (log, pandas, utils), statistics/rework (log, pandas, cases); pandas operations by their meaning | consecutive positions of a sorted list give the minimal gap; closed form of the position in the case; counting through a bijection of cases and rows |
| C76 | statistics/eventually_follows and statistics/concurrent_activities (log, pandas) with the joins of df_statistics.py; integer time stamps; not modelled: keep_first_following, business hours | sums over pairs of a stably sorted list rewritten as sums over pairs of the list (induction over insertion); early exit = filter on a sorted list; the last of the sorted keys wins |
| C77 | algo/discovery/heuristics/variants/classic.py (apply_heu, calculate), objects/heuristics_net/node.py (AND measures, loops of length two), dfg/variants/freq_triples.py; rationals instead of floats; not modelled: performance decoration, colours, start/end nodes, conversion to a Petri net, plusplus variant | folds characterised by filters (strong connections) and by an invariant (added loops without repetition), membership reduced to the dictionary look-ups |
| C78 | objects/petri_net/utils/decomposition.py (get_graph_components, decompose, merge_comp, merge_sublist_nets); connected components as successive joining of blocks; markings as functions; not modelled: name clashes of places and transitions, the cache keys | components = classes of the generated equivalence (invariant over the edges); permutations for places, silent transitions, arcs; determinism of firing for the run equivalence; induction over the word composes the sequences of the components |
| C79 | streaming/stream/live_event_stream.py (append, _deliver, start, stop; live_trace_stream.py is the same code) as a transition system with the condition's FIFO waiters and a FIFO thread pool; critical sections are steps; not modelled: register/deregister during delivery, a second start, observers that call the stream, spurious wake-ups | invariants over all schedules (accounting permutation / list equation; waiters of the condition determined by the threads' states), a decreasing measure for termination, concrete schedules for the refutations |
| C80 | streaming/algo/conformance/footprints/variants/classic.py completely (without the log messages) | invariant over the history: the two dictionaries hold the last known activity and the number of deviations of the trace since its first known activity |
| C81 | streaming/algo/conformance/temporal/variants/classic.py; times as integer ticks, profile with exact reals (as C71) | invariant over the stream; the pairs of a trace extended by one event are a permutation of the old pairs and the new ones |
| C82 | objects/log/util/interval_lifecycle.py to_interval and to_lifecycle; activity, instance, transition, timestamp, start timestamp; not: other attributes, durations, business hours | invariant of the loop with the queues of open start events gives a FIFO matching; the way back with the theorem that zipping sorted starts with sorted ends restores intervals that are not nested |
| C83 | algo/discovery/performance_spectrum algorithm.py, variants log.py and dataframe.py, util/points_subset.py; cases as numbers, times as integers, the random sample as any function choosing rows without repetition; not: disconnected variants | stable sorting commutes with filtering; windows of a frame sorted by case are the windows of the cases; arithmetic of the chosen positions; unique decoding of prefix-free names |
| C84 | objects/bpmn/util/reduction.py completely, as a step relation that allows every order of the node set; flows as pairs, parallel flows as repetitions; not: names, layout, message flows | the degrees of the other nodes do not change in a step; invariant with a bijection between the flows; termination by the number of nodes; uniqueness of the end of a path through gateways of degree one gives confluence |
| C85 | objects/conversion/wf_net/variants/to_bpmn.py:17-91, the diagram before the gateway reduction (C84); token semantics of BPMN 2.0 for exclusive and parallel gateways and tasks as the specification; not: weighted arcs, several initial tokens in a place | weighted sum of the tokens on the flows as the net marking (simulation of every step); canonical states with all tokens before the place gateways for the other direction |
| C86 | objects/bpmn/util/reduction.py:40-78 with flows as objects (the new flow is a new object); not: a gateway connected only with itself (C84_loop_refuted), inclusive gateways | both directions by simulation: the tokens of the two removed flows together are the tokens of the new flow; the reverse direction passes every token through the removed gateway at once |
| C87 | objects/log/util/interval_lifecycle.py:192-262; time in ticks, a business duration is the sum of the business time of the ticks (C69); not: times before the epoch | invariant of the loop: the cycle time is the measure of the union of the intervals seen, the wasted time the measure of the gaps |
| C88 | evaluation/generalization/variants/token_based.py:33-48, evaluation/simplicity/variants/arc_degree.py:62-72, with real numbers instead of floating point; the activated transitions are an input (replay: C26) | the counter keys and the missing transitions partition the transitions; double counting of arcs |
| C89 | objects/log/util/split_train_test.py:41-54, ml.py:54-65 and 93-94, objects/log/util/get_prefixes.py:26-54, log_to_target/variants/next_activity.py:63-83, remaining_time.py:57-74; the shuffle is any permutation, the random numbers any function of the case; rational fraction, integer times | permutation and filter lemmas; induction over the rows with the number of earlier rows of every case |
| C90 | performance_spectrum/variants/log_disconnected.py:65-103, after filtering and sorting (C83), without sampling (C83); the lookup of a generator object in a set of tuples is modelled as a comparison of different Python values | the merge loop is the identity; positions as a zip of the trace with its tail |
| C91 | objects/log/util/activities_to_alphabet.py:66-78, the activity column; the order of value_counts is arbitrary; not: missing values | the value of a string in bijective base 26 is a left inverse of the numbering |
| C92 | organizational_mining/roles/common/algorithm.py:32-325; order of roles and of activities in a role left open, ties between pairs left open; rational numbers | the number of roles decreases; invariant: partition and event counts; a most similar pair exists in a finite list |
| C93 | objects/log/util/move_attrs_to_trace.py:53-80; values are strings, the standard extensions a predicate on names; not: deep copy, unhashable values, events shared between traces | candidates characterized by the constancy in every trace; induction over the candidates |
| C94 | statistics/traces/generic/log/case_arrival.py:57-128, pandas/case_arrival.py:57-73; integer times, rational durations; a duration is a difference of a cumulated (business) time; not: pandas dispersion (same code with last), missing values in data frames | telescoping sum; head and last of a sorted list are its bounds |
| C07-C09 | UVCL as counter of variants, all cuts (incl. strict sequence), all fall-throughs, base cases, `fold` and `tree_sort` of the wrapper; set iteration order, `sorted` and the candidate chosen by the process pool are arbitrary functions (`Env`); alphabet at most `sys.maxsize` (sentinel of the strict sequence cut) | per-cut lemma (groups partition the alphabet, sublogs split the log) + lexicographic measure (activities, events, empty trace) |
| C10-C12 | process trees as an inductive type, list mutation loops modelled index by index | language algebra (concatenation, shuffle, loop) |
| C13 | printer/parser on `List Char` with explicit depth cache | induction on trees with a continuation lemma |
| C14, C31 | `recursively_add_tree` for all operators producing numbered places/transitions/arcs, silent start/end transitions, reduction, clean-up; iteration order of sets arbitrary; node names dropped | block calculus: a block (one entry, one exit) realises a language and is safe, proper, completable and live; one composition lemma per operator; reductions keep it |
| C15 | reduction rounds on arc lists, iteration order arbitrary | simulation up to silent steps in both directions, degree invariants; witnesses for marked places and parallel arcs |
| C32 | composition of C07-C10, C14, C31 | composition |
| C16 | discovery and conformance on lists; negation for always-after/before with witness | counting lemmas |
| C17,C18 | counters as functions/association lists; state machine for streaming | induction over logs / streams |
| C19,C20 | footprints of logs, traces and of trees (per operator), footprints conformance | per-operator exactness lemmas on languages, induction over trees; witnesses for ternary loops, OR, empty log |
| C34 | `get_bottomup_nodes` on node objects (subtree + ancestors), arbitrary set order, `==` on trees; dictionaries filled along the list | loop invariant (order, done), the child with the largest position adds its parent; nodes with a label are determined by their subtree; `fold`/`tree_sort`/IM keep "every operator has a visible leaf" |
| C35 | fp_fitness/fp_precision over exact rationals | inequalities over sums of counters |
| C21 | two-row dynamic programme and argmin loop | equality with recursive edit distance, minimality over edit scripts |
| C22, C37 | the six tables as lists of rows; `isin`/`groupby` by their meaning; networkx components by contract | filter algebra; n-step reachability for levels; symmetric closure for components |
| C23 | Boolean matrices | closure invariants, termination measure |
| C24, C36 | variants dictionary in insertion order, filters on event logs and dataframes (rows), the numpy computation index by index; pandas `groupby`/`isin`/`np.unique` by their meaning; floats as rationals | dictionary = first occurrences with their traces; permutation lemmas; loop invariant for the percentage filter; contiguity for numpy slices |
| C25 | the 17 checks, the table of rules, thresholds; floats as rationals; dictionaries as functions | the loops over labelled positions and over position lists are one two-state automaton, which is alternate/chain succession; counting for support/confidence; witnesses for the deviations from the standard meaning |
| C26 | `apply_trace` with its four counters, the walk over hidden transitions (`apply_hidden_trans`), the attempts to reach the final marking, the table of hidden paths, `apply_log` over variants, `evaluate`; caches off; token-flood cleaning, per-place/transition statistics, enabled-transition lists and alignments not modelled | counter invariant by induction over events and hidden walks; breadth-first table = shortest hidden paths; run extraction for soundness; determinism of nets without duplicate labels for completeness; S-nets: one token, table paths are always executable |
| C27 | trie insertion loop | refinement to set of words |
| C28 | semantics with arc kinds | as C01 |
| C29 | the worklist loop after n iterations, generic semantics with state equality | invariant: visited states closed under firing up to the queue; counting of pushes for termination |
| C30 | interval list | counting |

## Findings (disagreements between code and expectation)

* `always_after`/`always_before` of the log skeleton count pairs of positions; a log may deviate from its own skeleton (C16).
* The synchronous product and the incidence matrix ignore arc weights (C04, C05).
* `get_vertex_frequencies` adds outgoing arcs *and* starts, contrary to its documentation (C17).
* `process_tree_to_binary_process_tree` changes the language of interleaving nodes with more than two children (C12).
* `argmax_levenshtein` returns None if all candidates equal the string (C21).
* The trie does not mark a variant final if a longer variant with that prefix was inserted before (C27).
* Overlap counts identical intervals once, since `intervaltree.IntervalTree` is a set (C30).
* A loop with only a do part is converted to a net that may mix it with its siblings; an OR with one branch gets a dead transition (C14, C31).
* The default alignment variant `dijkstra_less_memory` is not optimal: `⟨c,a⟩` against the sequence a,c,a costs 30000 instead of 10000, and a perfectly fitting trace may get a positive cost (C33).
* The silent-transition reductions ignore markings and may create parallel arcs, on which `execute` consumes tokens that are not there (C15).
* Footprints of a loop with three children and of OR are not those of the language; the inductive miner produces such loops, so that footprints conformance (and `check_is_fitting` based on it) reports a perfectly fitting log (C19, C20).
* `get_bottomup_nodes` misses nodes for trees with duplicate labels, which ends in a `KeyError` (C34).
* `fp_fitness` is 1 for every log without directly-follows pairs; the empty log is reported unfit by log-level footprints conformance (C19, C35).
* Variant filtering of event logs reorders the log (grouped by variant) (C24).
* `pandas_numpy_variants.apply` calls `sort_values` without using its result: on a dataframe with interleaved cases it assigns activities of other cases, and `filter_variants_top_k` may drop every row (C24, C36).
* Declare conformance: alternate/chain precedence accept ⟨b,a,b⟩ and reject ⟨a⟩; alternate response is checked for the couples of *response* (a `KeyError` if response is missing); non-coexistence is checked twice, so the fitness can be −1; negated (chain) succession is never checked; succession rejects traces without the activities, so that discovered constraints with confidence 1 are reported as violated by the log they come from (C25).
* OCEL filters: objects without interactions are never kept by `filter_ocel_cc_length/otype/activity`; `filter_ocel_cc_otype(positive=False)` is not the complement; the minimum 0 drops events in `filter_ocel_object_per_type_count`, which counts relations and not objects; unknown identifiers raise `KeyError` for level > 1; allowed activities are matched on concatenated names (C37).
* Extensive playout: `new_state in visited` compares triples with pairs and never holds; without a final marking traces are repeated; it does not end if silent transitions fire forever (C29).
* Token-based replay: `add_missing_tokens` puts the whole arc weight but reports the deficit; with `stop_immediately_unfit` the fitness may be negative; fitness is 1 if nothing was consumed or produced; `trace_is_fit` is decided before the final marking's deficit is added; all variants share one dictionary of activities missing in the model; the last recursive call of `apply_hidden_trans` cannot do anything since its transition is already visited (C26).
* A* alignments: if there is no alignment, the inner loop of `__search` may call `heappop` on an empty list (`IndexError`) instead of returning `None`; `SearchTuple.__lt__` is not a strict order among tuples of equal f (C38).
* Alignment fitness: `dijkstra_less_memory` does not store the trace costs, so that its fitness may be negative; the empty trace gets fitness 0 from a net that accepts it with silent steps only; 10000 silent steps count as a deviation; `log_fitness` of fitting logs is below 1 if silent steps are used (C39).
* DFG filters: the test "if that is still not empty" is defeated by the final removal of disconnected activities: the DFG of ⟨a,b,c,d,a⟩ filtered with percentage 0 has no edge (C40).
* Event-log `eventually_follows` with time bounds compares the first events of the trace instead of the matched ones; the positive and negative four-eyes (numeric) filters drop (keep) some traces in both (C41).
* Dataframe filters that disagree with the event-log filters: `A_next_B_next_C` and `four_eyes_principle` look at the last B (C) only; `eventually_follows` raises for one value, or three values with time; the negative numeric filter; repetition with lower bound 0; intersecting is strict at the bounds; paths and `starts_with` compare concatenated names; path performance compares rows of different cases; `filter_df_keeping_spno_activities` returns the unfiltered dataframe; `between` for one activity loses the last event of each lap; `activity_split` moves rows to other cases unless the cases are sorted (C42).
* `convert_to_dataframe(log)` forces `deepcopy=False`: the case attributes are written into the events of the given event log; log → stream → log loses empty traces, merges traces with the same identifier and renames trace attributes whose names contain `case:` (C43).
* The default conversion of a DFG to a Petri net forgets start/end activities that occur in no arc, so single-event variants of a log do not fit the net of its own DFG; the variant with invisibles hides activities named like the artificial start/end and raises `KeyError` without start or end activities; the DFG playout raises `KeyError` at dead ends and does not yield the most likely traces first (C44).
* The comment/name `__check_is_unrelated` says the opposite of what it returns (true if related); the caller negates it, so the Alpha Miner is right (C45). The fixed `range(0, len(pairs))` was suspected to miss pairs: proved not to.
* `get_ex_seq` returns `None` for the OR operator (a `TypeError` for the caller) and ignores every loop child after the second (C46); for INTERLEAVING it shuffles the children of the given tree in place, so playing out changes the model (not modelled).
* Extensive playout (C47): with the default `max_loop_occ = int(max_trace_length / 2)` traces are missing when a loop part can be silent (`*(a, tau)`, maximum 4: `aaaa`); a choice at the root ignores the length bounds because the 'remaining' lengths become negative (`X(a, ->(b,c,d))` with maximum 1 - the default - returns `bcd`); a silent root ignores the minimum; sequences/parallel with one child raise IndexError and OR/interleaving KeyError.
* An empty `StrictPartialOrder([])` is converted to a net whose final silent transition has no input place: arbitrarily many tokens reach the sink (C48).
* `simplify_using_frequent_transitions` replaces `X( a, tau )` by one mandatory transition labelled `a\n[1,1]`: the empty trace and `⟨a⟩` are lost if the result is used for anything but drawing; `X( tau, tau )` becomes the visible `None\n[1,1]` (C49).
* `discover_powl` raises `Exception('Only loops of length 2 are supported!')` on ordinary logs: the loop cut may return one body and several redo groups, and the POWL loop node only takes two children (`<1>,<1,2,1>,<1,3,1>`, every variant) (C50).

* C51 re-models the four rule filters of C41/C42 independently (other data representation, arbitrary interleaving of cases, exact equality of the resulting frame) and adds the combination over several relations by `filter_eventually_follows_relation`; the findings are those listed for C41 and C42 (C51).
* alignments with DFGs: `__return_alignment` skips the states with position 0, so the model moves before the first event are missing in the returned alignment (trace <b>, DFG a->b: the result is [(b, b)] with cost 10000) (C52).
* alignments with DFGs: log moves after the silent move to the end node: the returned alignment then contains the internal end node (a uuid) and loses the last log move (trace <a,x>, DFG x->a, starts x and a, end a) (C52).
* alignments with DFGs: with non-uniform costs the returned cost is not minimal, since the closed set prunes states of a smaller position (trace <b,a,a>, DFG a->b, model costs 3, log costs 2 and 3: 8 instead of 7) (C52).
* workflow net to process tree: the check compares names, two transitions with the same name (allowed in pm4py) make an unconnected net pass (C53).
* workflow net to process tree: arc weights and the given initial and final markings are ignored; a net `a` -2-> p, `b`, q -2-> `c` with the language <a,b,b,c> gives ->( a, b, c ) (C53).
* workflow net to process tree: a workflow net without any complete run can be converted to a tree with traces (C53).
* workflow net to process tree: a net with a single transition: the plain label is parsed as if it were the text of a tree (error, or a wrong tree), a silent single transition raises TypeError (read in the code; C53 assumes two transitions).
* `reduce` (tree_tr_based.py:113) returns `fold(bottomup_nodes[-1])`; with duplicate labels the last node of the list need not be the root, e.g. a leaf for `->( 'a', 'b', X( 'a', 'b' ) )` and the trace a b a (C54).
* to_powl.py:43-47 treats INTERLEAVING like PARALLEL: `<>( ->( 'a', 'b' ), 'c' )` becomes a partial order with the trace a c b (C55).
* pt_to_regex (regex.py:62-67) drops silent children before looking at the number of children of a loop: `*( tau, 'a' )` becomes `^(a)+$`, which does not match the empty trace; `*( 'a', 'b', 'c' )` becomes `^(abc)*a$` (C56).
* pt_to_regex returns the pattern `^$` for interleaving nodes, without an exception (C56).
* the PTML importer (importer/ptml.py:155-168) replaces a loop with a visible third child by a sequence that it appends at the end of the parent's children: `->( *( 'a', 'b', 'c' ), 'd' )`, written and read again (or written by ProM with an exit child), is read as `->( 'd', ->( *( 'a', 'b' ), 'c' ) )`; at the root the third child is lost, because the loop node is still returned as root (C57).
* export to PTML of a tree with an interleaving node fails with an AttributeError (ptml.py:117-128) (C57).
* `write_dfg` raises `ValueError: ... is not in list` for every log with a single-event case whose activity occurs on no directly-follows edge (start/end activities are looked up in the list of edge endpoints), after having already written part of the file; `read_dfg` strips names, so ` a` and `a` are merged and one count is lost (C58).
* a net with a labelled transition exported with `export_prom5=True` cannot be imported: the importer evaluates `"invisible" in None` (importer pnml.py:222-223) (C59).
* PNML import looks up both ends of an arc by name, trying place→transition first: an arc from a transition to a place is reversed if both names are also names of a place and a transition (e.g. both called `x`); duplicate place names re-attach arcs to the last place (C59).
* a transition with an empty label is read back with its name as label; an empty final marking is not written and a guess (one token per place without outgoing arcs) is returned; arc properties are written but never read (C59).
* chunk_regex decodes each 4096-byte block separately: a multi-byte character across a boundary raises UnicodeDecodeError; entities are not unescaped; a value with `"` (written in single quotes) is cut and later attributes of the trace are lost; nested children are dropped (C60).
* the XES exporter writes extension and classifier names unescaped and classifier keys with spaces unquoted, so they are read back split (C60).
* the line_by_line importer reads MAX_TRACES + 1 traces, the iterparse importer MAX_TRACES (C61, C62).
* the line_by_line importer shares values in a dictionary keyed by ==: `True` read after `1` becomes `1` (C61); children of nested attributes overwrite attributes of the event (C61).
* the iterparse importer reads the children of an attribute at its start event, when lxml may not have parsed them: nested attributes are kept or lost depending on the buffer (C62).
* check_soundness calls WOFLAN with return_asap_when_not_sound, so a sound workflow net that is not covered by S-components is answered False (C63).
* WOFLAN looks for dead tasks among labelled transitions only, and does not compare the markings with the source and sink: a net with a dead silent transition, or started in its sink place, is answered True; numbers of tokens of the markings are ignored (C63).
* in minimal_coverability_graph.py:127-133 the loop variable is used again for the inner loop, so only the last node below is removed; in algorithm.py step 7 `get_left` is compared with True without being called (C63, modelled as they are).
* markings are compared through np.array2string, which summarises arrays of more than 1000 entries: nets with more than 1000 places are outside the theorem (C63).
* murata.py tests the effect of a transition on output arcs only and allows the constant k for input arcs: a marked place (such as the source of a net, if its name is the first) can be 'implicit' and is removed although the language changes (C64).
* murata.py does not empty Aeq and Aub between places: the redundant places are always a prefix of the places sorted by name, and an implicit place after a needed one is not removed (C64).
* reduce_petri_net_implicit_places changes the net that is passed but copies the initial marking (C64, not a theorem).
* to_petri_net.py: between inclusive split and join the silent skip transitions allow all branches to be skipped: OR(a,b) accepts the empty trace (C65_inclusive_refuted).
* to_petri_net.py: a task or event with several outgoing flows becomes a choice of one flow (BPMN: parallel split) (C65_implicit_split).
* objects/bpmn/semantics.py: execute calls weak_execute without its third argument (TypeError), weak_execute removes all tokens of a node (not modelled).
* etconformance_token.py:120, align_etconformance.py:128: `len(log)` of a data frame is the number of rows: ⟨a,b⟩ gives precision 3/5 instead of 2/3 (C66_dataframe_refuted).
* precision/utils.py:124,151: prefixes are joined and split with ','; an activity called 'a,b' is replayed as a, b (C66_separator_refuted).
* align_utils.py:430-469: the dictionary of markings keeps one marking per transition, so activities behind a silent transition that is enabled in two markings can be missed (C66_eventually_refuted).
* precision/utils.py:76-80: transitions without input places are never tried (C66_source_transition_refuted).
* view_based.py:79-82: source and target state of a step are both looked up before either is added; if their names are equal and new, two states with the same name are created and the log trace can be lost (C67_replay_refuted).
* statistics/traces/cycle_time/util/compute.py:55-65: the last busy period is never added to the production time; a log without idle time has cycle time 0 (C68_refuted).
* util/business_hours.py:78: slots are merged if the gap is one second, although ends are exclusive in the overlap computation (C69_gap_refuted).
* algo/discovery/batches/utils/detection.py:84-91: `heapq.heappush` on a list from which elements were deleted does not keep it sorted; a later interval then precedes the merged one and is merged into it whatever the distance (C70_far_refuted).
* algo/discovery/batches/utils/detection.py:156-157: `heapq.heapify` does not sort, so neighbours in the list can be in the wrong order and are merged as overlapping (C70_unsorted_refuted).
* A log need not conform to its own temporal profile for the default ζ = 6 once a pair has 38 observations (C71_self_sharp); the limit is exact (C71_self_default).
* A sequence with one child is converted to a graph whose end event is not connected: it has no trace (C72_single_child_refuted); an interleaving is dropped without an exception (C72_interleaving_refuted) (C72).
* discover_subcontracting_network counts only the first subcontracting of each resource (the loop is nested in the test that creates the entry), so its result depends on the order of the traces (C73_subcontracting_refuted, C73_subcontracting_order).
* discover_working_together_network divides by the number of events for data frames and by the number of cases for event logs (C73_together_df_refuted).
* The social network functions raise a ValueError if the network has no connection (C73_handover_raises).
* An event that is related twice to the same object, with two qualifiers, is duplicated by ocel_flattening and gives a self-edge in the object-centric directly-follows graph (C74_qualifiers_refuted).
* get_minimum_self_distance_witnesses ignores the activity_key parameter when it looks for the witnesses (C75_witnesses_refuted).
* The pandas variant of the minimum self-distance groups by the concatenation of case identifier and activity, which may collide; the collisions are harmless (C75_df).
* The concurrent activities of a data frame lose counts: the entries (a, b) and (b, a) are both assigned to the sorted pair, the second one overwrites the first (C76_conc_df, C76_conc_df_refuted). The Heuristics Miner ++ uses these counts.
* For events that start together, discover_eventually_follows_graph gives different results for an event log and the same data frame (C76_efg_ties_refuted).
* discover_heuristics_net drops activities that only follow each other in both directions: loops of length two are only searched at activities with another connection (C77_complete_refuted).
* min_dfg_occurrences is only tested for one direction of a loop of length two, and the two ends of its connections carry different frequencies (C77_loop_refuted); a connection removed as noise can come back as part of a loop with frequency 0 (C77_noise_refuted).
* maximal_decomposition does not keep transitions with the same label together (get_graph_components adds an edge from the label to itself), so decomposed alignments of nets with duplicated labels work on an invalid decomposition: a component rejects its part of an accepted trace (C78_duplicates_refuted).
* maximal_decomposition and merge_comp drop arc weights (C78_weights_refuted).
* LiveEventStream hands the calls of receive to a pool of six workers, so observers can receive events of a case in the wrong order and streaming discovery gets wrong directly-follows pairs (C79_order_refuted).
* Two concurrent calls of LiveEventStream.stop can leave the delivery thread waiting forever (C79_two_stops_refuted); stop before start closes the pool and the next event kills the delivery thread while it holds the lock (C79_stop_before_start_refuted); stop of a stream with events that was never started does not return (C79_never_started_refuted).
* LiveEventStream.deregister is declared async, so a plain call does nothing (read, not modelled).
* Streaming footprints conformance forgets unknown activities at the beginning of a case: the deviation counter is reset with every event until the first known activity (C80_leading_unknown_refuted).
* to_interval(to_lifecycle(log)) exchanges the ends of nested intervals of the same activity (C82_nested_refuted).
* to_interval looks only at the first event of the first trace to see whether the log has start timestamps; an interval log with an empty first trace loses all of them (C82_first_trace_refuted).
* The dataframe variant of the performance spectrum joins the activity names before comparing: [aa, a] matches the pattern [a, aa] (C83_join_refuted).
* log_disconnected.py:80 tests whether a generator object is in a set of tuples, which is never true: connected matches are never merged (read, not proved).
* reduce_xor_gateways does not terminate on a component of exclusive gateways that are connected only with each other: the last gateway is removed and added again with its self-loop (C84_loop_refuted).
* The BPMN diagram of a net whose transitions share several places can deadlock although the net cannot (C85_deadlock_refuted).
* assign_lead_cycle_time compares start and latest end with < and >: an execution that starts exactly when the previous one ends is counted nowhere (C87_touch_refuted).
* split_train_test for event logs puts one trace too many into the training log: floor(n * fraction) + 1 (C89_split_size, C89_split_fraction_refuted).
* log_disconnected.py:85-86 looks a generator object up in a set of tuples, so that segments are never joined (C90_segments_refuted).
* move_attrs_to_trace fails on an empty log: it iterates over None (C93_empty_refuted).
* get_case_dispersion_avg checks the time stamp of the first event and reads that of the last one (C94_refuted).
