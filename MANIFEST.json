{
 "claims": [
  {
   "property": "C01",
   "status": "proved",
   "theorems": [
    "MM.C01_success_is_minor_embedding",
    "MM.C01_success_is_minor_embedding_of_fixed",
    "MM.C01_dict_is_minor_embedding",
    "MM.C01_dict_passes_is_valid_embedding",
    "MM.C04_not_unshared"
   ],
   "note": "For well-formed input (Input.OK) without restrict_chains. Input.OK excludes initial chains on fixed qubits, for which the claim fails (C04_not_unshared). Connectedness of fixed chains and edges between fixed nodes are not checked by the code, so they appear as hypotheses of the second theorem."
  },
  {
   "property": "C02",
   "status": "partial",
   "theorems": [
    "MM.C02_success_is_minor_embedding_partial",
    "MM.C02_success_not_valid"
   ],
   "note": "The full claim is false of the code; a kernel-checked counterexample is given. It is proved for compatible restrictions."
  },
  {
   "property": "C03",
   "status": "partial",
   "theorems": [
    "MM.C03_not_confined",
    "MM.C03_confined_softly_partial",
    "MM.C03_confined_uniform_partial"
   ],
   "note": "The full claim is false of the code (counterexample). Proved: a chain stays within its own restriction and those of its neighbours, and exactly within it when all nodes have the same restriction."
  },
  {
   "property": "C04",
   "status": "proved",
   "theorems": [
    "MM.C04_fixed_chains_exact",
    "MM.C04_not_unshared"
   ],
   "note": "For well-formed input and compatible restrictions; fails when an initial chain meets a fixed chain (second theorem). If a run with return_overlap fails during initialisation, all chains (also the fixed ones) come back empty."
  },
  {
   "property": "C05",
   "status": "partial",
   "theorems": [
    "MM.C05_no_undefined_behaviour",
    "MM.C05_undefined_initial_for_fixed",
    "MM.C05_undefined_initial_on_fixed",
    "MM.C05_endless_with_restrictions"
   ],
   "note": "Proved for well-formed input and compatible restrictions; the other theorems show inputs outside these conditions on which the code does something undefined or loops for ever. Integer overflow of distances is not modelled."
  },
  {
   "property": "C06",
   "status": "proved",
   "theorems": [
    "MM.C06_fills_exact"
   ],
   "note": "Over every sequence of operations the search applies (Arises), for compatible restrictions."
  },
  {
   "property": "C07",
   "status": "proved",
   "theorems": [
    "MM.C07_undo_restores"
   ],
   "note": ""
  },
  {
   "property": "C08",
   "status": "proved",
   "theorems": [
    "MM.C08_strict_order",
    "MM.C08_accepts_iff_better",
    "MM.C08_first_accepted",
    "MM.C08_never_worse"
   ],
   "note": ""
  },
  {
   "property": "C09",
   "status": "proved",
   "theorems": [
    "MM.C09_improvement_terminates"
   ],
   "note": "For well-formed problems with compatible restrictions; negative patience is not modelled."
  },
  {
   "property": "C10",
   "status": "proved",
   "theorems": [
    "MM.C10_look",
    "MM.C10_interrupt_propagates",
    "MM.C10_interactive_interrupt_is_timeout",
    "MM.C10_timeout_returns",
    "MM.C10_success_kept",
    "MM.C10_answer"
   ],
   "note": "Stop instants are an arbitrary sequence of readings, one for each look at the clock. A pass that fails does not look at the clock."
  },
  {
   "property": "C100",
   "status": "proved",
   "theorems": [
    "MM.C100_restart"
   ],
   "note": "given chains of fixed nodes among the initial chains are excluded (C04)"
  },
  {
   "property": "C101",
   "status": "partial",
   "theorems": [
    "MM.C101_embeddings_partial",
    "MM.C101_force_never_returns",
    "MM.C101_counts_failures"
   ],
   "note": "with return_overlap false (counterexample)"
  },
  {
   "property": "C102",
   "status": "proved",
   "theorems": [
    "MM.C102_improve_embeddings"
   ],
   "note": ""
  },
  {
   "property": "C103",
   "status": "partial",
   "theorems": [
    "MM.C103_distances_fit_partial",
    "MM.C103_few_variables_partial",
    "MM.C103_table_room",
    "MM.C103_overflow_fixed",
    "MM.C103_overflow_crowded"
   ],
   "note": "false next to fixed chains (counterexamples C103_overflow_fixed, C103_overflow_crowded); proved for searches without fixed neighbours and for most numbers of summands, if no qubit is in more than 63 chains; the rounding of doubles in the table is not modelled"
  },
  {
   "property": "C104",
   "status": "partial",
   "theorems": [
    "MM.C104_margin",
    "MM.C104_refused_partial",
    "MM.C104_large_refused",
    "MM.C104_never_too_large",
    "MM.C104_room_lost",
    "MM.C104_single_qubit"
   ],
   "note": "false from 2^32 pairs on (counterexamples)"
  },
  {
   "property": "C105",
   "status": "partial",
   "theorems": [
    "MM.C105_max_fill_partial",
    "MM.C105_max_fill_one",
    "MM.C105_bound",
    "MM.C105_above_63",
    "MM.C105_below_63",
    "MM.C105_fixed_exceeds"
   ],
   "note": "false next to fixed chains (counterexample C105_fixed_exceeds); proved for problems in which no variable without fixed chain has a neighbour with one; limits between 49 and 63 may be lowered (C105_below_63)"
  },
  {
   "property": "C106",
   "status": "partial",
   "theorems": [
    "MM.C106_nonnegative",
    "MM.C106_success_is_minor_embedding",
    "MM.C106_negative_tries",
    "MM.C106_negative_patience",
    "MM.C106_never_returns",
    "MM.C106_negative_patience_timeout"
   ],
   "note": "that every call returns is false (C106_never_returns); the rest is proved, for the last loop with a time limit too; the doubling of the number of variables is not checked for overflow"
  },
  {
   "property": "C107",
   "status": "partial",
   "theorems": [
    "MM.C107_public",
    "MM.C107_miner",
    "MM.C107_order",
    "MM.C107_unknown_name",
    "MM.C107_bad_value",
    "MM.C107_seed",
    "MM.C107_search",
    "MM.C107_success_is_minor_embedding",
    "MM.C107_verbose_fails",
    "MM.C107_miner_is_not_equivalent",
    "MM.C107_interrupt_is_inverted"
   ],
   "note": "reading and use of the parameters are proved; the equivalence with miner, the return after an interrupt and verbose=4 are false, with counterexamples"
  },
  {
   "property": "C108",
   "status": "partial",
   "theorems": [
    "MM.C108_stop_time",
    "MM.C108_too_long_is_undefined",
    "MM.C108_no_time"
   ],
   "note": "proved for timeouts from 0 to 7e9 seconds and below; false for infinite and very long timeouts (C108_too_long_is_undefined)"
  },
  {
   "property": "C109",
   "status": "proved",
   "theorems": [
    "MM.C109_regularize",
    "MM.C109_empty",
    "MM.C109_not_uniform"
   ],
   "note": "for every maximum matching that networkx may return"
  },
  {
   "property": "C11",
   "status": "proved",
   "theorems": [
    "MM.C11_result_contract",
    "MM.C11_dict_contract",
    "MM.C11_no_flag_for_empty_source"
   ],
   "note": "An empty source graph is the exception: a bare dict is returned although return_overlap asks for a pair (third theorem)."
  },
  {
   "property": "C110",
   "status": "partial",
   "theorems": [
    "MM.C110_valid",
    "MM.C110_computed",
    "MM.C110_heuristic",
    "MM.C110_quality",
    "MM.C110_default_partial",
    "MM.C110_disk_ignored",
    "MM.C110_identifiers",
    "MM.C110_overwrites",
    "MM.C110_worse",
    "MM.C110_pegasus_identifier",
    "MM.C110_one_search",
    "MM.C110_chimera_fails",
    "MM.C110_default_heuristic",
    "MM.C110_sizes"
   ],
   "note": "validity and the effect of a quality function are proved; that an existing cache is augmented is false (C110_worse); without a quality function only for caches whose chains are listed by length"
  },
  {
   "property": "C111",
   "status": "partial",
   "theorems": [
    "MM.C111_clique",
    "MM.C111_biclique_partial",
    "MM.C111_refused",
    "MM.C111_square",
    "MM.C111_chimera",
    "MM.C111_second_labels",
    "MM.C111_mixed_overlap",
    "MM.C111_refuses"
   ],
   "note": "cliques: proved; bicliques: a valid embedding exactly if an entry of the cache is large enough on its shorter side; the full claim is false (C111_refuses)"
  },
  {
   "property": "C112",
   "status": "partial",
   "theorems": [
    "MM.C112_labels",
    "MM.C112_integers",
    "MM.C112_cliques",
    "MM.C112_bicliques",
    "MM.C112_round",
    "MM.C112_import",
    "MM.C112_import_fails",
    "MM.C112_zephyr",
    "MM.C112_zephyr_dies",
    "MM.C112_chosen"
   ],
   "note": "proved for converters that agree with the names of the qubits; false for Zephyr graphs of other tile sizes (C112_zephyr) and for importing into graphs with coordinate labels (C112_import_fails)"
  },
  {
   "property": "C113",
   "status": "partial",
   "theorems": [
    "MM.C113_clear_partial",
    "MM.C113_again",
    "MM.C113_follows_links"
   ],
   "note": "proved for caches without links to directories; false with such links (C113_follows_links)"
  },
  {
   "property": "C114",
   "status": "proved",
   "theorems": [
    "MM.C114_outcome",
    "MM.C114_number",
    "MM.C114_ends",
    "MM.C114_races",
    "MM.C114_chain"
   ],
   "note": "threads as interleaved steps on shared memory; the outcome is that of the sequential model for a suitable tape"
  },
  {
   "property": "C115",
   "status": "partial",
   "theorems": [
    "MM.C115_graph",
    "MM.C115_contract",
    "MM.C115_chain_partial",
    "MM.C115_pair_partial",
    "MM.C115_partial",
    "MM.C115_chimera",
    "MM.C115_odd"
   ],
   "note": "the code does not draw odd couplers (C115_odd), so the drawing is faithful to the graph without them; in full for Chimera"
  },
  {
   "property": "C116",
   "status": "partial",
   "theorems": [
    "MM.C116_repeat_partial",
    "MM.C116_few",
    "MM.C116_valid",
    "MM.C116_unseeded",
    "MM.C116_errors",
    "MM.C116_number",
    "MM.C116_listing",
    "MM.C116_pegasus",
    "MM.C116_seeds"
   ],
   "note": "the code violates it for single-qubit chains when a graph is listed in another order (C116_listing) and in Pegasus for different seeds (C116_pegasus); proved otherwise for all histories"
  },
  {
   "property": "C117",
   "status": "proved",
   "theorems": [
    "MM.C117_renaming",
    "MM.C117_items",
    "MM.C117_repeat",
    "MM.C117_repeat_miner",
    "MM.C117_order_of_edges_counts"
   ],
   "note": "C117_order_of_edges_counts shows that the order of the edges does count"
  },
  {
   "property": "C118",
   "status": "partial",
   "theorems": [
    "MM.C118_repeat_partial",
    "MM.C118_valid",
    "MM.C118_few",
    "MM.C118_errors",
    "MM.C118_pegasus",
    "MM.C118_seeds",
    "MM.C118_lonely"
   ],
   "note": "the code violates it in Pegasus for different seeds (C118_pegasus); proved otherwise for all histories"
  },
  {
   "property": "C119",
   "status": "proved",
   "theorems": [
    "MM.C119_found",
    "MM.C119_answer",
    "MM.C119_largest",
    "MM.C119_chimera",
    "MM.C119_zephyr",
    "MM.C119_pegasus"
   ],
   "note": ""
  },
  {
   "property": "C12",
   "status": "proved",
   "theorems": [
    "MM.C12_sorted_multiset"
   ],
   "note": ""
  },
  {
   "property": "C120",
   "status": "proved",
   "theorems": [
    "MM.C120_found",
    "MM.C120_short",
    "MM.C120_answer",
    "MM.C120_chimera",
    "MM.C120_zephyr",
    "MM.C120_pegasus",
    "MM.C120_pegasus_usual"
   ],
   "note": "without the cache C120_answer is for more nodes than a cell has tracks on one side (see C50 for fewer); in zephyr_graph(m, t) for m at least 2, in pegasus_graph(m) with the usual offsets for m at least 4"
  },
  {
   "property": "C121",
   "status": "partial",
   "theorems": [
    "MM.C121_pick",
    "MM.C121_possible_partial",
    "MM.C121_not_uniform"
   ],
   "note": "that the chances are equal is false of the code (C121_not_uniform); each largest native clique has a positive chance"
  },
  {
   "property": "C122",
   "status": "partial",
   "theorems": [
    "MM.C122_rejected",
    "MM.C122_meant_partial",
    "MM.C122_triggered",
    "MM.C122_triggered_false",
    "MM.C122_default_policy_false"
   ],
   "note": "triggered_restarts has no effect, and parameters of the default policy are refused if it is not named; the rest is proved"
  },
  {
   "property": "C123",
   "status": "partial",
   "theorems": [
    "MM.C123_edgeless_partial",
    "MM.C123_weights",
    "MM.C123_edgeless_default_partial",
    "MM.C123_one_component",
    "MM.C123_pieces_never",
    "MM.C123_threads_false",
    "MM.C123_flat_false"
   ],
   "note": "proved for serial searches with max_beta at least 2 and a target with a component of enough nodes; false for targets in pieces, with several threads, and with max_beta 1"
  },
  {
   "property": "C124",
   "status": "proved",
   "theorems": [
    "MM.C124_report",
    "MM.C124_no_false_alarm",
    "MM.C124_result",
    "MM.C124_tidy",
    "MM.C124_missed"
   ],
   "note": "C124_missed: a wrong count on a qubit that nothing refers to is not reported; C124_result: the embedding a search ends with is accepted; C124_tidy: every problem handed to the search meets the hypothesis of C124_no_false_alarm"
  },
  {
   "property": "C125",
   "status": "partial",
   "theorems": [
    "MM.C125_accepted_partial",
    "MM.C125_exact",
    "MM.C125_unrooted"
   ],
   "note": "C125_exact says outright which states are accepted; that they are embeddings is proved for states whose chains are not empty and rooted; a chain without root is not checked for connection"
  },
  {
   "property": "C126",
   "status": "partial",
   "theorems": [
    "MM.C126_iterate_partial",
    "MM.C126_missed"
   ],
   "note": "only the first of the corners noted for a best last rectangle is used, so that largest cliques are left out"
  },
  {
   "property": "C127",
   "status": "proved",
   "theorems": [
    "MM.C127_found",
    "MM.C127_empty",
    "MM.C127_stopped"
   ],
   "note": "The Glasgow solver is any function that answers exactly when there is a mapping of the numbered graphs; C127_stopped says what a stopped solver leads to."
  },
  {
   "property": "C128",
   "status": "proved",
   "theorems": [
    "MM.C128_maximal",
    "MM.C128_filter",
    "MM.C128_default"
   ],
   "note": "The embedder is any function that answers exactly when there is an embedding; the clock is a parameter."
  },
  {
   "property": "C129",
   "status": "proved",
   "theorems": [
    "MM.C129_maximal",
    "MM.C129_filter",
    "MM.C129_bound",
    "MM.C129_default"
   ],
   "note": "The embedder is any function that answers exactly when there is an embedding; the clock and the sublattice mappings of dwave.graphs are parameters. A tile may be refused at once where it or the target has no embedding; C129_filter and C129_bound show that the filter and lattice_size_lower_bound do no more than that."
  },
  {
   "property": "C13",
   "status": "proved",
   "theorems": [
    "MM.C13_queue_never_overflows"
   ],
   "note": "For every embedding that arises in a run with compatible restrictions; the number of insertions is bounded by the number of qubits marked as visited."
  },
  {
   "property": "C130",
   "status": "proved",
   "theorems": [
    "MM.C130_share",
    "MM.C130_default",
    "MM.C130_sublattice"
   ],
   "note": "As C128 and C129: the solver is any function that answers exactly when there is a subgraph; the clock and the sublattice mappings are parameters."
  },
  {
   "property": "C14",
   "status": "proved",
   "theorems": [
    "MM.C14_distances_shortest"
   ],
   "note": "Distances are unbounded naturals with infinity; signed overflow is not modelled. The statement shows that the fill bound is not applied to the first step out of a fixed chain."
  },
  {
   "property": "C15",
   "status": "proved",
   "theorems": [
    "MM.C15_minima_exact"
   ],
   "note": ""
  },
  {
   "property": "C16",
   "status": "proved",
   "theorems": [
    "MM.C16_orders_are_permutations"
   ],
   "note": ""
  },
  {
   "property": "C17",
   "status": "proved",
   "theorems": [
    "MM.C17_exclusive",
    "MM.C17_exactly_once",
    "MM.C17_chunks_partition"
   ],
   "note": "Interleaving semantics with a mutex; data races on the per-neighbour arrays are excluded by exclusivity. Exceptions thrown inside a worker are not modelled."
  },
  {
   "property": "C18",
   "status": "partial",
   "theorems": [
    "MM.C18_serial_parallel_partial",
    "MM.C18_fails_without_neighbours"
   ],
   "note": "The full claim is false of the code when no neighbour is embedded (counterexample); proved, for all orders and tie-breaks, when one is."
  },
  {
   "property": "C19",
   "status": "proved",
   "theorems": [
    "MM.C19_neighbour_lists"
   ],
   "note": ""
  },
  {
   "property": "C20",
   "status": "proved",
   "theorems": [
    "MM.C20_components",
    "MM.C20_round_trip"
   ],
   "note": "std::sort is a parameter assumed to return a permutation in order of decreasing size."
  },
  {
   "property": "C21",
   "status": "proved",
   "theorems": [
    "MM.C21_renumbering",
    "MM.C21_reported_for_own_node"
   ],
   "note": ""
  },
  {
   "property": "C22",
   "status": "proved",
   "theorems": [
    "MM.C22_rejected_exactly",
    "MM.C22_translated",
    "MM.C22_fixed_out_of_range"
   ],
   "note": "Initial and restricting chains are checked as claimed. Fixed chains with a key or node outside the graphs are used as indices before they are checked (third theorem), so the first theorem assumes they are in range."
  },
  {
   "property": "C23",
   "status": "partial",
   "theorems": [
    "MM.C23_other_node_embedded",
    "MM.C23_fixed_chain_replaced",
    "MM.C23_listed_nodes_partial"
   ],
   "note": "The full claim is false of the code when a fixed node comes before a listed one (two counterexamples: list entries are not renumbered). Proved when every listed node comes before all fixed ones; with local_search also under the condition of C56."
  },
  {
   "property": "C24",
   "status": "proved",
   "theorems": [
    "MM.C24_reading_a_graph",
    "MM.C24_numbers_stay"
   ],
   "note": "Labels are compared with decidable equality, as Python compares dict keys."
  },
  {
   "property": "C25",
   "status": "proved",
   "theorems": [
    "MM.C25_suspended_chains"
   ],
   "note": "Without restrict_chains, under the conditions on the chain arguments in Args.OK."
  },
  {
   "property": "C26",
   "status": "proved",
   "theorems": [
    "MM.C26_state",
    "MM.C26_overlaps",
    "MM.C26_lengths",
    "MM.C26_order",
    "MM.C26_ranks",
    "MM.C26_embedded",
    "MM.C26_empty_chains_rank_first"
   ],
   "note": "Includes a proof that an embedding whose chains are all empty ranks before all others."
  },
  {
   "property": "C27",
   "status": "proved",
   "theorems": [
    "MM.C27_errors_are_defects",
    "MM.C27_defects_are_reported",
    "MM.C27_no_error_iff_minor_embedding",
    "MM.C27_is_valid",
    "MM.C27_verify"
   ],
   "note": "The graph library and the iteration order of sets are parameters."
  },
  {
   "property": "C28",
   "status": "proved",
   "theorems": [
    "MM.C28_disjoint_and_limited",
    "MM.C28_target_untouched",
    "MM.C28_empty_source"
   ],
   "note": "The embedder is any function whose values are of the kind announced and use target nodes only."
  },
  {
   "property": "C29",
   "status": "partial",
   "theorems": [
    "MM.C29_chains_overlap",
    "MM.C29_list_chains_raise",
    "MM.C29_limit_zero",
    "MM.C29_disjoint_partial"
   ],
   "note": "False for chain-valued embedders (counterexamples), because one_to_iterable is not passed on, and for a limit of zero. Proved for node-valued embedders and for chains when the tile's embedding is used."
  },
  {
   "property": "C30",
   "status": "partial",
   "theorems": [
    "MM.C30_square_arrays",
    "MM.C30_round_trip_partial"
   ],
   "note": "False when the number of embeddings equals the number of source nodes (counterexample); proved otherwise."
  },
  {
   "property": "C31",
   "status": "partial",
   "theorems": [
    "MM.C31_minor_embedding_accepted_partial",
    "MM.C31_subgraph_accepted",
    "MM.C31_never_raises",
    "MM.C31_self_loops"
   ],
   "note": "The filter accepts every pair with a subgraph embedding (one_to_one either way) and every pair with a minor embedding when the source has no self-loops; it never raises. With self-loops in the source the claim for minor embeddings is false (C31_self_loops)."
  },
  {
   "property": "C32",
   "status": "partial",
   "theorems": [
    "MM.C32_lower_bound_partial",
    "MM.C32_terminates_partial",
    "MM.C32_none_one_to_one_partial",
    "MM.C32_none_target_partial",
    "MM.C32_none_for_a_star",
    "MM.C32_none_for_K4",
    "MM.C32_endless",
    "MM.C32_none_for_small_target"
   ],
   "note": "A number returned is never above a size that works; the loop ends if some size works; with one_to_one, no target graph and a colouring with two colours None is right. False as stated: None is returned for a star and for K4 which have minor embeddings, for a target that is too small, and for some sources the call never returns."
  },
  {
   "property": "C33",
   "status": "proved",
   "theorems": [
    "MM.C33_empty_or_complete",
    "MM.C33_too_few_nodes",
    "MM.C33_found",
    "MM.C33_as_embedding"
   ],
   "note": "The Glasgow solver is any function that answers nothing or gives a mapping of the kind asked for; shuffles and the order of sets are any permutations."
  },
  {
   "property": "C34",
   "status": "proved",
   "theorems": [
    "MM.C34_minor_embedding",
    "MM.C34_returns",
    "MM.C34_refuses"
   ],
   "note": "For dimensions that are natural numbers."
  },
  {
   "property": "C35",
   "status": "proved",
   "theorems": [
    "MM.C35_index",
    "MM.C35_find",
    "MM.C35_largest"
   ],
   "note": "For every list of stored embeddings and every list of node labels."
  },
  {
   "property": "C36",
   "status": "partial",
   "theorems": [
    "MM.C36_sparse",
    "MM.C36_dense",
    "MM.C36_kept"
   ],
   "note": "The sparse export keeps everything, for integer labelled graphs; the dense one loses exactly the largest size (C36_dense)."
  },
  {
   "property": "C37",
   "status": "partial",
   "theorems": [
    "MM.C37_merge_partial",
    "MM.C37_insert_partial",
    "MM.C37_quality_lost",
    "MM.C37_disk_lost"
   ],
   "note": "Holds in memory when stored chains are sorted by length; computed caches are not sorted (C37_quality_lost), and a new object overwrites the cache on disk (C37_disk_lost)."
  },
  {
   "property": "C38",
   "status": "partial",
   "theorems": [
    "MM.C38_partial",
    "MM.C38_lopsided",
    "MM.C38_shorter"
   ],
   "note": "false of the code for sides that differ: both sides of the cached biclique must reach the larger of the two sides asked for (C38_lopsided); proved: exactly then a valid biclique with the requested sides and labels is returned, otherwise the empty dictionary"
  },
  {
   "property": "C39",
   "status": "partial",
   "theorems": [
    "MM.C39_partial",
    "MM.C39_lost"
   ],
   "note": "false of the code: the table of lengths is never written, so a later mask's embedding replaces a shorter one (C39_lost); proved: keys unique, every embedding valid with its sides, best within its mask by the computed length, and every pair of sides that occurs in any mask is present"
  },
  {
   "property": "C40",
   "status": "partial",
   "theorems": [
    "MM.C40_partial",
    "MM.C40_broken"
   ],
   "note": "false of the code: a kill right after the removal of the oldest file makes every later call for a graph that is not in the list raise (C40_broken, for every limit and every full cache); proved for kills at all other points"
  },
  {
   "property": "C41",
   "status": "partial",
   "theorems": [
    "MM.C41_partial",
    "MM.C41_fails",
    "MM.C41_corrupt"
   ],
   "note": "false of the code: temporary files are renamed after the locks are released, so a call fails because of another process (C41_fails), and with a kill the list is cut short for good (C41_corrupt); proved for all schedules in which no call takes the locks before the renaming"
  },
  {
   "property": "C42",
   "status": "proved",
   "theorems": [
    "MM.C42_lru",
    "MM.C42_results"
   ],
   "note": "for all histories of calls that are neither killed nor interleaved; C42_results is a refinement to a list of at most `limit` caches"
  },
  {
   "property": "C43",
   "status": "proved",
   "theorems": [
    "MM.C43_chimera",
    "MM.C43_chimera_distinct",
    "MM.C43_pegasus",
    "MM.C43_zephyr",
    "MM.C43_linemajor_distinct",
    "MM.C43_segments"
   ],
   "note": "Numbers are natural numbers, without the bound of 64 bits."
  },
  {
   "property": "C44",
   "status": "proved",
   "theorems": [
    "MM.C44_popcount",
    "MM.C44_first_bit",
    "MM.C44_mask_bit",
    "MM.C44_loop"
   ],
   "note": "All 256 bytes."
  },
  {
   "property": "C45",
   "status": "proved",
   "theorems": [
    "MM.C45_avoids",
    "MM.C45_missing",
    "MM.C45_few",
    "MM.C45_count"
   ],
   "note": "For every graph of the three families. The results of std::shuffle and std::sort are any permutations, the coins any bits."
  },
  {
   "property": "C46",
   "status": "proved",
   "theorems": [
    "MM.C46_segments",
    "MM.C46_faultless"
   ],
   "note": "For every mask of every graph of the three families."
  },
  {
   "property": "C47",
   "status": "proved",
   "theorems": [
    "MM.C47_ells"
   ],
   "note": "For all sets of ells that meet each other, in all three families."
  },
  {
   "property": "C48",
   "status": "partial",
   "theorems": [
    "MM.C48_best",
    "MM.C48_width_one"
   ],
   "note": "For widths from 2 on; for width 1 the search writes past its table (C48_width_one)."
  },
  {
   "property": "C49",
   "status": "proved",
   "theorems": [
    "MM.C49_exact",
    "MM.C49_short",
    "MM.C49_largest",
    "MM.C49_number",
    "MM.C49_self_loop"
   ],
   "note": "For edge lists without self-loops; with self-loops the search for three nodes can repeat a node (C49_self_loop)."
  },
  {
   "property": "C50",
   "status": "partial",
   "theorems": [
    "MM.C50_partial",
    "MM.C50_never",
    "MM.C50_hangs"
   ],
   "note": "false of the code: in Chimera and Zephyr every request of at most one side of a cell that single qubits cannot meet hangs or writes out of bounds (C50_never; C50_hangs is a whole cell); proved: requests that single qubits can meet"
  },
  {
   "property": "C51",
   "status": "proved",
   "theorems": [
    "MM.C51_windows"
   ],
   "note": "for every mask searched and every rectangle of the grid; the dimensions are positive"
  },
  {
   "property": "C52",
   "status": "proved",
   "theorems": [
    "MM.C52_bijective",
    "MM.C52_never_stuck",
    "MM.C52_seeds",
    "MM.C52_stream",
    "MM.C52_amplify"
   ],
   "note": "no seed at all leads to the zero state"
  },
  {
   "property": "C53",
   "status": "proved",
   "theorems": [
    "MM.C53_size",
    "MM.C53_injective"
   ],
   "note": "Bytes written equal bytes announced for every junk buffer; within a family equal bytes mean equal dimensions, offsets and masks. The masks themselves do not determine the graph: see C64. Pegasus does not serialise the seed."
  },
  {
   "property": "C54",
   "status": "partial",
   "theorems": [
    "MM.C54_documented_partial",
    "MM.C54_others_escape",
    "MM.C54_base_class_escapes"
   ],
   "note": "The five named classes and all derived from them are translated as documented. The base class MinorMinerException is thrown too (fixed chains that use up the target) and is not translated: C54_base_class_escapes."
  },
  {
   "property": "C55",
   "status": "partial",
   "theorems": [
    "MM.C55_connected_partial",
    "MM.C55_none_missing",
    "MM.C55_wrong_sizes"
   ],
   "note": "All listed sets are connected and none is missing, but sets of fewer nodes are listed too (counterexample)."
  },
  {
   "property": "C56",
   "status": "partial",
   "theorems": [
    "MM.C56_undefined_with_local_search",
    "MM.C56_defined_partial"
   ],
   "note": "False with local_search when a listed node lacks a suitable initial chain (counterexample). Proved without local_search, and with it when the listed nodes are distinct and each has a connected initial chain that meets or touches those of its neighbours; under the condition of C23."
  },
  {
   "property": "C57",
   "status": "partial",
   "theorems": [
    "MM.C57_listed_node_too_long",
    "MM.C57_length_bound_partial"
   ],
   "note": "False when a fixed node comes before a listed one (counterexample). Proved under the conditions of C23 and C56, with and without local_search."
  },
  {
   "property": "C58",
   "status": "partial",
   "theorems": [
    "MM.C58_overlap_beside_fixed",
    "MM.C58_overlap_bound_partial"
   ],
   "note": "False next to fixed chains (counterexample). Proved when no listed node has a fixed neighbour, under the conditions of C23 and C56."
  },
  {
   "property": "C59",
   "status": "partial",
   "theorems": [
    "MM.C59_labels_partial",
    "MM.C59_isolated_nodes"
   ],
   "note": "Holds for edges and for nodes with an edge; false for isolated nodes (counterexample)."
  },
  {
   "property": "C60",
   "status": "proved",
   "theorems": [
    "MM.C60_valid",
    "MM.C60_short",
    "MM.C60_nested",
    "MM.C60_chimera",
    "MM.C60_pegasus",
    "MM.C60_cached"
   ],
   "note": "For every subgraph of the three lattices with the supported parameters, and all random choices."
  },
  {
   "property": "C61",
   "status": "partial",
   "theorems": [
    "MM.C61_length_partial",
    "MM.C61_imported",
    "MM.C61_not_largest",
    "MM.C61_key_error"
   ],
   "note": "Valid and within the bound always; not the largest one known, and empty above the largest stored length (C61_not_largest). After an import the answer for a length that an imported embedding needs is the largest imported one (C61_imported); other lengths raise KeyError (C61_key_error)."
  },
  {
   "property": "C62",
   "status": "partial",
   "theorems": [
    "MM.C62_partial",
    "MM.C62_no_biclique"
   ],
   "note": "false of the code for graphs without couplers, where making the cache raises (C62_no_biclique); proved for every cache that is not empty"
  },
  {
   "property": "C63",
   "status": "proved",
   "theorems": [
    "MM.C63_found",
    "MM.C63_chimera"
   ],
   "note": "for every order in which std::sort leaves chains of the same length; shortest chains for Chimera only, as the code promises nothing for the others"
  },
  {
   "property": "C64",
   "status": "partial",
   "theorems": [
    "MM.C64_partial",
    "MM.C64_chimera",
    "MM.C64_odd",
    "MM.C64_families"
   ],
   "note": "False in general: odd couplers make no difference (C64_odd), and the identifier does not contain the family (C64_families). Proved: in Chimera equal identifiers mean equal graphs; within a family equal up to odd couplers."
  },
  {
   "property": "C65",
   "status": "partial",
   "theorems": [
    "MM.C65_partial",
    "MM.C65_chimera",
    "MM.C65_stale"
   ],
   "note": "False in general: C65_stale gets a triangle that is not there from the cache of a graph with one more odd coupler. Proved for Chimera, and in general up to odd couplers, for all histories with kills other than while evicting (see C40_broken)."
  },
  {
   "property": "C66",
   "status": "proved",
   "theorems": [
    "MM.C66_incomplete_refused",
    "MM.C66_complete_accepted",
    "MM.C66_embedding_accepted"
   ],
   "note": "Other exceptions (chains outside the working component, a target that is too small) come before and are described by C22. Restrictions must be compatible, as for C01."
  },
  {
   "property": "C67",
   "status": "proved",
   "theorems": [
    "MM.C67_multiple",
    "MM.C67_sublattice",
    "MM.C67_tile_embedding"
   ],
   "note": "The embedder, the clock, the graph generators and the sublattice mappings are parameters."
  },
  {
   "property": "C68",
   "status": "partial",
   "theorems": [
    "MM.C68_partial",
    "MM.C68_outcome",
    "MM.C68_counterexample"
   ],
   "note": "Proved for sizes below 2^31, in builds without assertions. Fails otherwise: C68_counterexample."
  },
  {
   "property": "C69",
   "status": "partial",
   "theorems": [
    "MM.C69_partial",
    "MM.C69_counterexample"
   ],
   "note": "Proved if no area reaches 2^31. Fails otherwise: the compare functions narrow areas to int (C69_counterexample)."
  },
  {
   "property": "C70",
   "status": "partial",
   "theorems": [
    "MM.C70_partial",
    "MM.C70_too_small",
    "MM.C70_ignored",
    "MM.C70_counterexample"
   ],
   "note": "False for two limits (C70_counterexample). Proved: with one limit that is not below the largest rectangle packing succeeds; a limit below it is refused and rightly so."
  },
  {
   "property": "C71",
   "status": "proved",
   "theorems": [
    "MM.C71_box",
    "MM.C71_overlap",
    "MM.C71_density",
    "MM.C71_errors"
   ],
   "note": "Positive sizes and one position per rectangle; otherwise C71_errors."
  },
  {
   "property": "C72",
   "status": "partial",
   "theorems": [
    "MM.C72_partial",
    "MM.C72_set_scale",
    "MM.C72_set_center",
    "MM.C72_missing",
    "MM.C72_small_dim",
    "MM.C72_nan",
    "MM.C72_empty"
   ],
   "note": "Proved in exact arithmetic for non-empty graphs, if the points are not all the same where a scale is given. Fails otherwise: C72_nan (points become NaN), C72_empty (no layout of an empty graph). Missing points and too small dimensions are refused: C72_missing, C72_small_dim."
  },
  {
   "property": "C73",
   "status": "partial",
   "theorems": [
    "MM.C73_partial",
    "MM.C73_rigid",
    "MM.C73_scaled",
    "MM.C73_succeeds",
    "MM.C73_dim",
    "MM.C73_flat",
    "MM.C73_center"
   ],
   "note": "Proved for bounded coordinates in exact arithmetic. Fails for a component whose points lie on a line: packing raises (C73_flat); a centre of other than two coordinates without dim is refused (C73_center)."
  },
  {
   "property": "C74",
   "status": "partial",
   "theorems": [
    "MM.C74_partial",
    "MM.C74_default",
    "MM.C74_too_small",
    "MM.C74_hidden"
   ],
   "note": "False as stated: sets below the requested size are used (C74_too_small), and sets with a common barycentre hide each other (C74_hidden). Proved: everything else, for any k-d tree that finds nearest points."
  },
  {
   "property": "C75",
   "status": "partial",
   "theorems": [
    "MM.C75_partial",
    "MM.C75_chimera_full",
    "MM.C75_no_qubits",
    "MM.C75_one_row",
    "MM.C75_family"
   ],
   "note": "False for Zephyr, where a node may get no qubits (C75_no_qubits), and for grids of one row (C75_one_row). Proved: the qubits at a grid point are coupled, at most one of each orientation, and the grid point is the nearest one."
  },
  {
   "property": "C76",
   "status": "partial",
   "theorems": [
    "MM.C76_partial",
    "MM.C76_result",
    "MM.C76_objects",
    "MM.C76_suspend",
    "MM.C76_timeout",
    "MM.C76_edge_list",
    "MM.C76_family",
    "MM.C76_fixed"
   ],
   "note": "Proved without fixed_chains and restrict_chains. With fixed_chains the behaviour is undefined (C76_fixed); two documented kinds of argument do not work (C76_edge_list, C76_family)."
  },
  {
   "property": "C77",
   "status": "partial",
   "theorems": [
    "MM.C77_partial",
    "MM.C77_used",
    "MM.C77_ratio_ignored",
    "MM.C77_scaled_anyway",
    "MM.C77_nan"
   ],
   "note": "False as documented: C77_ratio_ignored, C77_scaled_anyway, C77_nan. C77_partial states what the scale is."
  },
  {
   "property": "C78",
   "status": "proved",
   "theorems": [
    "MM.C78_prompt"
   ],
   "note": "Counts looks at the clock; each pass that is not given up looks once."
  },
  {
   "property": "C79",
   "status": "partial",
   "theorems": [
    "MM.C79_partial",
    "MM.C79_scaled",
    "MM.C79_given_ignored",
    "MM.C79_dim_mismatch",
    "MM.C79_order"
   ],
   "note": "False for graphs whose nodes are not in sorted order (C79_order) and for given distances (C79_given_ignored). Proved otherwise for non-empty graphs in exact arithmetic, for every minimiser that keeps the shape of the array."
  },
  {
   "property": "C80",
   "status": "partial",
   "theorems": [
    "MM.C80_partial",
    "MM.C80_p_partial",
    "MM.C80_inf_partial",
    "MM.C80_wrong",
    "MM.C80_inf_dim"
   ],
   "note": "False: the gradient is half the true one (C80_wrong) and for p infinity exists in two dimensions only (C80_inf_dim). Proved: it is exactly half the derivative, wherever the norms are differentiable, over the real numbers."
  },
  {
   "property": "C81",
   "status": "partial",
   "theorems": [
    "MM.C81_partial",
    "MM.C81_nan",
    "MM.C81_one_dim",
    "MM.C81_unknown"
   ],
   "note": "False where the drawing has no width or height (C81_nan) and in one dimension (C81_one_dim). Proved otherwise, for positive scales in exact arithmetic."
  },
  {
   "property": "C82",
   "status": "proved",
   "theorems": [
    "MM.C82_given",
    "MM.C82_found"
   ],
   "note": "For a given tile embedding, and for one the embedder finds. The embedder, the clock, the graph generators and the sublattice mappings are parameters."
  },
  {
   "property": "C83",
   "status": "partial",
   "theorems": [
    "MM.C83_lines_partial",
    "MM.C83_outside",
    "MM.C83_broken"
   ],
   "note": "False for lines of one cell behind a missing coupler (C83_broken); proved for lines of two or more cells, and for all if no coupler between working qubits of neighbouring cells is missing; scores are never too large."
  },
  {
   "property": "C84",
   "status": "proved",
   "theorems": [
    "MM.C84_valid",
    "MM.C84_largest",
    "MM.C84_tightest"
   ],
   "note": "For all random numbers within their bounds and all shuffles."
  },
  {
   "property": "C85",
   "status": "proved",
   "theorems": [
    "MM.C85_optimal",
    "MM.C85_counted"
   ],
   "note": "C85_counted shows that the native cliques of the specification are cliques of the size counted."
  },
  {
   "property": "C86",
   "status": "partial",
   "theorems": [
    "MM.C86_largest_partial",
    "MM.C86_type_error",
    "MM.C86_not_largest",
    "MM.C86_short_by_default"
   ],
   "note": "False with missing couplers between cells (C86_not_largest), without a limit (C86_short_by_default) and for limits above M + N (C86_type_error). Proved otherwise: largest among native cliques within the lengths tried, with the shortest chains."
  },
  {
   "property": "C87",
   "status": "partial",
   "theorems": [
    "MM.C87_tightest_partial",
    "MM.C87_score",
    "MM.C87_missed"
   ],
   "note": "The score is not n (C87_score), and only chains up to the smaller dimension plus one are tried (C87_missed). Proved if no coupler between working qubits is missing: n chains, shortest possible, or none exists within the lengths tried."
  },
  {
   "property": "C88",
   "status": "partial",
   "theorems": [
    "MM.C88_valid",
    "MM.C88_size_partial",
    "MM.C88_broken"
   ],
   "note": "biclique is proved in full; biclique_size counts too few lines if couplers between cells are missing (counterexample C88_broken)"
  },
  {
   "property": "C89",
   "status": "partial",
   "theorems": [
    "MM.C89_valid",
    "MM.C89_largest_partial",
    "MM.C89_not_largest"
   ],
   "note": "validity and limits in full; optimality if no coupler between working qubits is missing, and false otherwise (counterexample C89_not_largest)"
  },
  {
   "property": "C90",
   "status": "partial",
   "theorems": [
    "MM.C90_valid",
    "MM.C90_tightest_partial",
    "MM.C90_square",
    "MM.C90_score",
    "MM.C90_missed"
   ],
   "note": "validity and sizes in full; minimality if no coupler between working qubits is missing, and false otherwise (C90_missed); the score is not the documented one (C90_score)"
  },
  {
   "property": "C91",
   "status": "proved",
   "theorems": [
    "MM.C91_labels",
    "MM.C91_neighbors"
   ],
   "note": ""
  },
  {
   "property": "C92",
   "status": "proved",
   "theorems": [
    "MM.C92_native",
    "MM.C92_largest",
    "MM.C92_tightest",
    "MM.C92_largest_bi",
    "MM.C92_tightest_bi",
    "MM.C92_linear"
   ],
   "note": "couplers of the given list must join qubits of the grid; proc_limit at least 1; limits of largestNativeClique at most M+N (it raises TypeError beyond, C86)"
  },
  {
   "property": "C93",
   "status": "partial",
   "theorems": [
    "MM.C93_deletions",
    "MM.C93_native",
    "MM.C93_largest_partial",
    "MM.C93_tightest",
    "MM.C93_long_chains",
    "MM.C93_largest_bi_partial",
    "MM.C93_long_bi",
    "MM.C93_tightest_bi_partial",
    "MM.C93_tightest_square",
    "MM.C93_tightest_default",
    "MM.C93_long_tightest"
   ],
   "note": "optimality of sizes if no couplers between cells are missing (false otherwise, C84-C90); shortest chains of the largest are false (C93_long_chains, C93_long_bi); for the tightest biclique the shortest chains with the default imbalance of 0, false otherwise (C93_long_tightest); nothing is returned exactly if there is none"
  },
  {
   "property": "C94",
   "status": "partial",
   "theorems": [
    "MM.C94_tried",
    "MM.C94_stop",
    "MM.C94_redundant"
   ],
   "note": "minimality of random deletions is false (counterexample C94_redundant)"
  },
  {
   "property": "C95",
   "status": "partial",
   "theorems": [
    "MM.C95_random",
    "MM.C95_yield",
    "MM.C95_refuses",
    "MM.C95_no_evil"
   ],
   "note": "the number of broken couplers between working qubits is false (counterexample C95_no_evil)"
  },
  {
   "property": "C96",
   "status": "partial",
   "theorems": [
    "MM.C96_histories_partial",
    "MM.C96_single"
   ],
   "note": "greedy passes are restricted (Spec.QuickOK): no local search, listed nodes before fixed ones, and with fixed chains neither an earlier order nor an unknown label (these are false, C23, C99)"
  },
  {
   "property": "C97",
   "status": "partial",
   "theorems": [
    "MM.C97_flag_partial",
    "MM.C97_stale"
   ],
   "note": "failure with a valid embedding is possible if a search is stopped (counterexample C97_stale)"
  },
  {
   "property": "C98",
   "status": "partial",
   "theorems": [
    "MM.C98_usable_chains_partial",
    "MM.C98_constructor",
    "MM.C98_set_initial_chains",
    "MM.C98_improve_embeddings"
   ],
   "note": "false of the code (counterexamples); the theorem shows that chains which name existing nodes of a connected target do no harm"
  },
  {
   "property": "C99",
   "status": "partial",
   "theorems": [
    "MM.C99_properly_embedded_partial",
    "MM.C99_first_call",
    "MM.C99_keep_first"
   ],
   "note": "without fixed chains, beside which passes may overlap (C58_overlap_beside_fixed); initial chains must partly embed the source, also those set later, and searches in between must succeed; the claims about the first call and about earlier orders are false (counterexamples)"
  }
 ]
}