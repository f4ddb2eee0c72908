{"id": "C01", "title": "A reported success is a valid minor embedding", "statement": "Whenever find_embedding reports success (and no restrict_chains are given and no initial chain uses a qubit of a fixed chain), every non-fixed source node has a non-empty chain that is connected in the target graph, chains of distinct nodes share no qubit (unless both are fixed), and every source edge with a non-fixed end is realised by a target edge between the two chains.", "quantifier": "all source/target graphs, all parameters, all random number streams, all timings of timeout and interrupt", "why_tests_cant": "the search is randomised and stateful; a test sees a handful of seeds, while one bad interleaving of tear-out, path linking and qubit stealing on an unseen graph corrupts an answer silently", "anchors": ["include/find_embedding/pathfinder.hpp:heuristicEmbedding", "include/find_embedding/pathfinder.hpp:find_chain", "include/find_embedding/pathfinder.hpp:find_short_chain", "include/find_embedding/embedding.hpp:construct_chain_steiner", "include/find_embedding/chain.hpp:link_path", "include/find_embedding/chain.hpp:steal", "include/find_embedding/find_embedding.hpp:findEmbedding"]}
{"id": "C02", "title": "Success is also valid when restrict_chains are given", "statement": "Whenever find_embedding reports success with restrict_chains, the returned chains form a valid minor embedding, exactly as without restrict_chains.", "quantifier": "all graphs, all restriction maps, all random streams", "why_tests_cant": "a wrong path is followed only when three or more neighbours with different domains meet in one place and stale scratch data is read", "anchors": ["include/find_embedding/embedding_problem.hpp:domain_handler_masked::prepare_visited", "include/find_embedding/embedding.hpp:construct_chain_steiner", "include/find_embedding/pathfinder.hpp:find_chain"]}
{"id": "C03", "title": "restrict_chains confines every chain", "statement": "The chain returned for a source node with a restrict_chains entry uses only qubits of that entry ('Throughout the algorithm, it is guaranteed that chain[i] is a subset of restrict_chains[i]').", "quantifier": "all graphs, restriction maps and random streams", "why_tests_cant": "violations need a path that is legal only for the neighbour and cannot be handed back to it; rarely hit at random", "anchors": ["include/find_embedding/embedding_problem.hpp:domain_handler_masked", "include/find_embedding/chain.hpp:steal", "minorminer/_minorminer.pyx:find_embedding"]}
{"id": "C04", "title": "fixed_chains are returned unchanged and are used by nobody else", "statement": "The chain returned for a node with a fixed_chains entry is exactly the given set of qubits, and no chain of a non-fixed node contains any of those qubits.", "quantifier": "all graphs, all fixed and initial chain maps, all random streams", "why_tests_cant": "must hold after any number of tear-out, steal and restore steps", "anchors": ["include/find_embedding/embedding.hpp:fix_chain", "include/find_embedding/embedding.hpp:statistics", "include/find_embedding/embedding.hpp:flip_back", "include/find_embedding/find_embedding.hpp:parameter_processor", "minorminer/_minorminer.pyx:find_embedding"]}
{"id": "C05", "title": "The search never dereferences missing chain data", "statement": "For well-formed input no run of the search looks up a qubit that is absent from a chain, steals along a missing link, or follows path pointers forever: every inner operation returns normally.", "quantifier": "all well-formed problems, all random streams, all run lengths", "why_tests_cant": "undefined behaviour on a map lookup usually does not crash, so tests pass while memory is corrupted", "anchors": ["include/find_embedding/chain.hpp", "include/find_embedding/embedding.hpp", "include/find_embedding/pathfinder.hpp"]}
{"id": "C06", "title": "Qubit use accounting is exact", "statement": "At every point of a run the recorded fill of each qubit equals the number of chains containing it; consequently the search reports 'embedded' if and only if no unreserved qubit is in two chains, and otherwise the overlap histogram it works with counts exactly the qubits contained in k chains for each k>=2.", "quantifier": "all histories of chain operations", "why_tests_cant": "a drift by one only shows after particular sequences of steal, freeze and restore", "anchors": ["include/find_embedding/chain.hpp:qubit_weight", "include/find_embedding/embedding.hpp:statistics"]}
{"id": "C07", "title": "Undo restores the embedding", "statement": "Taking a chain out reversibly and putting it back restores all chains, all links and all qubit fills, even when in between other chains for the same node were built and torn out.", "quantifier": "all reachable embeddings and nodes", "why_tests_cant": "the restored state is only compared indirectly by tests through the final result", "anchors": ["include/find_embedding/chain.hpp:freeze", "include/find_embedding/chain.hpp:thaw", "include/find_embedding/embedding.hpp:freeze_out", "include/find_embedding/embedding.hpp:thaw_back"]}
{"id": "C08", "title": "Best-so-far only improves", "statement": "The order used to accept a new best embedding is a strict order (never accepts an equal embedding, never cycles): embedded beats overlapping; then shorter histogram; then fewer items at the top; then the first difference downwards. Hence a later accepted embedding is strictly better than every earlier one since the last restart, and quality never gets worse by continuing.", "quantifier": "all sequences of candidate embeddings", "why_tests_cant": "an order that is not transitive or well-founded cycles only on special histograms", "anchors": ["include/find_embedding/pathfinder.hpp:check_improvement", "include/find_embedding/embedding.hpp:statistics"]}
{"id": "C09", "title": "The improvement loop terminates", "statement": "For every problem and every sequence of outcomes, the chain length improvement phase stops after finitely many passes, because each success is a strict descent in a well-founded order and failures use up the patience counter.", "quantifier": "all problems and all outcome sequences", "why_tests_cant": "non-termination cannot be observed by a finite test", "anchors": ["include/find_embedding/pathfinder.hpp:heuristicEmbedding", "include/find_embedding/pathfinder.hpp:check_improvement"]}
{"id": "C10", "title": "Timeout and interrupt contract", "statement": "A timeout makes the call return normally (with the best embedding if one was found, otherwise with a failure); a keyboard interrupt propagates to the caller unless interactive is set, in which case it behaves like a timeout; when both are pending the interrupt wins. A success found before the stop is never lost.", "quantifier": "all instants at which timeout or interrupt may strike", "why_tests_cant": "tests cannot enumerate stop instants", "anchors": ["include/find_embedding/pathfinder.hpp:check_stops", "include/find_embedding/pathfinder.hpp:heuristicEmbedding", "include/find_embedding/util.hpp:LocalInteraction::cancelled"]}
{"id": "C11", "title": "Result contract of find_embedding", "statement": "Without return_overlap the result is an empty dict exactly when the search failed, and otherwise has one chain for every source node; with return_overlap every source node has an entry and the flag equals success. An overlapping embedding is never returned unless return_overlap is set.", "quantifier": "all inputs and outcomes", "why_tests_cant": "needs all combinations of flags and outcomes", "anchors": ["include/find_embedding/find_embedding.hpp:findEmbedding", "minorminer/_minorminer.pyx:find_embedding"]}
{"id": "C12", "title": "Priority queue pops in order and loses nothing", "statement": "Any interleaving of insertions and removals on the search queue behaves like a sorted multiset: the element on top is a minimum by (distance, tie-break), removing it removes only it, and nothing is lost or duplicated.", "quantifier": "all operation sequences", "why_tests_cant": "a heap bug shows only for particular shapes", "anchors": ["include/find_embedding/pairing_queue.hpp:pairing_queue", "include/find_embedding/pairing_queue.hpp:pairing_node"]}
{"id": "C13", "title": "Search queue storage never overflows", "statement": "A single distance computation inserts each qubit at most once into its queue, so the preallocated storage of num_qubits entries (which is never recycled) is never exceeded.", "quantifier": "all graphs, chains and domains", "why_tests_cant": "overflow writes out of bounds silently", "anchors": ["include/find_embedding/pairing_queue.hpp:emplace", "include/find_embedding/pathfinder.hpp:compute_distances_from_chain", "include/find_embedding/pathfinder.hpp:dijkstra_initialize_chain"]}
{"id": "C14", "title": "Distances are true shortest distances", "statement": "The distance computed from a neighbour's chain to a qubit is the minimum over all paths of the sum of qubit weights outside the chain (infinite when there is no path through usable qubits), and the recorded path attains it.", "quantifier": "all graphs, weights, fills and bounds", "why_tests_cant": "errors in relaxation order only show on specific weights", "anchors": ["include/find_embedding/pathfinder.hpp:compute_distances_from_chain"]}
{"id": "C15", "title": "Root candidates are exactly the minima", "statement": "The list from which a chain root is drawn contains exactly the indices at which the total distance is minimal, each once.", "quantifier": "all non-empty vectors", "why_tests_cant": "ties in unusual positions", "anchors": ["include/find_embedding/util.hpp:collectMinima"]}
{"id": "C16", "title": "Every variable order visits every free variable exactly once", "statement": "For each strategy (shuffle, dfs, bfs, pfs, rpfs), the produced order is a permutation of the non-fixed source nodes.", "quantifier": "all source graphs (including disconnected ones and ones with fixed nodes) and all random streams", "why_tests_cant": "missed variables only for special component/shuffle combinations; a missed variable leaves an empty chain", "anchors": ["include/find_embedding/embedding_problem.hpp:var_order", "include/find_embedding/embedding_problem.hpp:dfs_component", "include/find_embedding/embedding_problem.hpp:pfs_component", "include/find_embedding/embedding_problem.hpp:bfs_component"]}
{"id": "C17", "title": "Parallel work distribution is exact under every schedule", "statement": "With threads > 1, for every interleaving of the workers each embedded neighbour is processed by exactly one worker and every worker stops; and the index chunks given to the workers partition the qubits, each qubit belonging to exactly one chunk.", "quantifier": "all thread counts, neighbour lists and schedules", "why_tests_cant": "schedules cannot be enumerated by running", "anchors": ["include/find_embedding/pathfinder.hpp:run_in_thread", "include/find_embedding/pathfinder.hpp:exec_chunked", "include/find_embedding/pathfinder.hpp:exec_indexed"]}
{"id": "C18", "title": "Parallel and serial searches compute the same root distances", "statement": "For the same state, the root distance vector computed with threads > 1 equals the one computed with threads = 1.", "quantifier": "all states of the search", "why_tests_cant": "the two code paths differ only in rare branches", "anchors": ["include/find_embedding/pathfinder.hpp:pathfinder_serial::prepare_root_distances", "include/find_embedding/pathfinder.hpp:pathfinder_parallel::prepare_root_distances"]}
{"id": "C19", "title": "Neighbour lists represent the graph", "statement": "From an edge list, the neighbourhoods used by the search contain y for x exactly when x-y is an edge (either orientation, parallel edges merged, self-loops dropped), minus edges into sources and edges out of sinks, with relabelling applied; each list is strictly increasing.", "quantifier": "all edge lists, relabelings and source/sink markings", "why_tests_cant": "duplicate edges, self loops and orientation mixes multiply", "anchors": ["include/find_embedding/graph.hpp:__get_neighbors", "include/find_embedding/graph.hpp:_to_vectorhoods"]}
{"id": "C20", "title": "Component split is the connected components", "statement": "Two target nodes are put in the same component exactly when they are connected by a path; translating a node to its component label and back is the identity; labels of a component are 0..n-1 with the reserved nodes last; component graphs have exactly the relabelled edges.", "quantifier": "all graphs and reservations", "why_tests_cant": "union-find with path compression has many states", "anchors": ["include/find_embedding/graph.hpp:components", "include/find_embedding/graph.hpp:into_component", "include/find_embedding/graph.hpp:from_component"]}
{"id": "C21", "title": "Variable renumbering is a bijection that puts fixed variables last", "statement": "The internal renumbering of source nodes is a permutation whose inverse is the stored inverse, non-fixed nodes get the low numbers in order, and chains are reported for the node they were computed for.", "quantifier": "all sets of fixed variables", "why_tests_cant": "an off by one swaps two answers silently", "anchors": ["include/find_embedding/find_embedding.hpp:_filter_fixed_vars", "include/find_embedding/find_embedding.hpp:_inverse_permutation", "include/find_embedding/find_embedding.hpp:get_chain"]}
{"id": "C22", "title": "Malformed chain parameters are rejected, well-formed ones are translated faithfully", "statement": "A chain parameter is rejected with an error exactly when a key is not a source node index or a qubit is not in the working component; otherwise every entry is translated to the renumbered variable and relabelled qubits and no entry is lost.", "quantifier": "all chain maps", "why_tests_cant": "boundary values", "anchors": ["include/find_embedding/find_embedding.hpp:input_chains", "include/find_embedding/graph.hpp:into_component"]}
{"id": "C23", "title": "quickpass works on the variables the caller names", "statement": "miner.quickpass(varorder) tears out and re-embeds exactly the (non-fixed) source nodes listed by the caller, in that order, also when some nodes are fixed.", "quantifier": "all variable orders and sets of fixed variables", "why_tests_cant": "only differs when fixed chains and explicit orders are combined", "anchors": ["include/find_embedding/find_embedding.hpp:input_vars", "include/find_embedding/find_embedding.hpp:quickPass", "minorminer/_minorminer.pyx:miner.quickpass"]}
{"id": "C24", "title": "Label dictionaries are bijections", "statement": "Reading a graph numbers labels 0,1,2,... in order of first appearance; looking up the label of the index of x gives x and vice versa; isolated nodes are included; re-reading does not renumber.", "quantifier": "all edge lists of arbitrary labels", "why_tests_cant": "hash/equality collisions and repeated labels", "anchors": ["minorminer/_minorminer_h.pxi:labeldict", "minorminer/_minorminer.pyx:_read_graph"]}
{"id": "C25", "title": "suspend_chains is enforced", "statement": "If find_embedding succeeds, then for each non-fixed suspended node i and each non-empty blob in suspend_chains[i] the chain of i contains a qubit of the blob, and the auxiliary nodes do not appear in the result.", "quantifier": "all graphs, suspension maps and random streams", "why_tests_cant": "problem transformation correctness over all graphs", "anchors": ["minorminer/_minorminer.pyx:_input_parser", "minorminer/_minorminer.pyx:find_embedding"]}
{"id": "C26", "title": "quality_key ranks embeddings as documented", "statement": "quality_key orders the empty embedding after every overlapping one and every overlapping one after every overlap-free one; among overlap-free ones it compares (longest chain length, its multiplicity, next length, ...) lexicographically; the overlap part is empty exactly when no qubit is used twice.", "quantifier": "all embeddings", "why_tests_cant": "all pairs of embeddings", "anchors": ["minorminer/_minorminer.pyx:miner.quality_key", "minorminer/_minorminer.pyx:miner.histogram_key", "minorminer/_minorminer.pyx:miner.count_overlaps"]}
{"id": "C27", "title": "diagnose_embedding is sound and complete", "statement": "diagnose_embedding yields no error exactly when the mapping is a valid minor embedding (every source node has a non-empty chain of target nodes, chains are connected and disjoint, every source edge is realised), every yielded error is a true defect, and is_valid_embedding / verify_embedding agree with it.", "quantifier": "all mappings, source and target graphs", "why_tests_cant": "soundness and completeness range over all graphs", "anchors": ["minorminer/utils/diagnostic.py:diagnose_embedding", "minorminer/utils/diagnostic.py:is_valid_embedding", "minorminer/utils/diagnostic.py:verify_embedding"]}
{"id": "C28", "title": "find_multiple_embeddings returns disjoint embeddings within the limit", "statement": "The embeddings returned by find_multiple_embeddings use pairwise disjoint target nodes, number at most max_num_emb, and each is an output of the embedder on the remaining target.", "quantifier": "all graphs, limits and embedders", "why_tests_cant": "repeated removal of used nodes over unbounded rounds", "anchors": ["minorminer/utils/parallel_embeddings.py:find_multiple_embeddings"]}
{"id": "C29", "title": "find_sublattice_embeddings returns disjoint embeddings", "statement": "The embeddings returned by find_sublattice_embeddings use pairwise disjoint target nodes and number at most max_num_emb, for node-valued as well as chain-valued embedders.", "quantifier": "all graphs, sublattices, limits and embedders (both one_to_iterable settings)", "why_tests_cant": "the default test embedders are one-to-one", "anchors": ["minorminer/utils/parallel_embeddings.py:find_sublattice_embeddings"]}
{"id": "C30", "title": "Embedding array round trip", "statement": "array_to_embeddings(embeddings_to_array(embs)) gives back the embeddings for the same node order, for one-to-one embeddings.", "quantifier": "all lists of one-to-one embeddings and node orders", "why_tests_cant": "ambiguous shapes such as square arrays", "anchors": ["minorminer/utils/parallel_embeddings.py:embeddings_to_array", "minorminer/utils/parallel_embeddings.py:array_to_embeddings"]}
{"id": "C31", "title": "The feasibility filter never rejects a feasible problem", "statement": "embedding_feasibility_filter returns False only when no embedding exists: for one_to_one, if the source is isomorphic to a subgraph of the target the filter returns True; and for minor embedding likewise.", "quantifier": "all pairs of graphs", "why_tests_cant": "necessary conditions have to hold on all feasible pairs", "anchors": ["minorminer/utils/feasibility.py:embedding_feasibility_filter"]}
{"id": "C32", "title": "lattice_size_lower_bound is a lower bound", "statement": "lattice_size_lower_bound returns a number of rows not above the size of any lattice in which the source embeds, and None only if no size works.", "quantifier": "all source graphs and lattice parameters", "why_tests_cant": "quantifies over all lattice sizes", "anchors": ["minorminer/utils/feasibility.py:lattice_size_lower_bound"]}
{"id": "C33", "title": "find_subgraph handles isolated nodes correctly", "statement": "If a non-empty mapping is returned, every source node is mapped; isolated source nodes are given target nodes so that the mapping stays injective (when injectivity is required); the result is empty when the target has too few nodes; with as_embedding every chain is a single target node and the chains form an embedding.", "quantifier": "all graphs with any number of isolated nodes", "why_tests_cant": "combinations of isolated source and target nodes", "anchors": ["minorminer/subgraph.pyx:find_subgraph", "minorminer/subgraph.pyx:_read_graph"]}
{"id": "C34", "title": "Native grid embeddings are valid", "statement": "chimera find_grid_embedding returns, whenever it returns, chains that form a valid minor embedding of the requested grid in the Chimera graph.", "quantifier": "all grid dimensions and Chimera sizes", "why_tests_cant": "all sizes", "anchors": ["minorminer/utils/chimera.py:find_grid_embedding"]}
{"id": "C35", "title": "The clique cache index answers with the best length", "statement": "For a clique size n, the cache returns the first (smallest) chain length whose stored embedding has at least n chains, every size up to the largest stored one has an entry, larger sizes have none.", "quantifier": "all lists of stored embeddings", "why_tests_cant": "non-monotone size profiles", "anchors": ["minorminer/busclique.pyx:_make_clique_cache", "minorminer/busclique.pyx:busgraph_cache.find_clique_embedding", "minorminer/busclique.pyx:busgraph_cache.largest_clique"]}
{"id": "C36", "title": "Clique cache export and re-import", "statement": "get_clique_cache (both sparse and dense) exports an embedding for every available clique size, so importing the exported cache keeps all sizes.", "quantifier": "all cache contents", "why_tests_cant": "boundary size is only visible at the largest clique", "anchors": ["minorminer/busclique.pyx:busgraph_cache.get_clique_cache", "minorminer/busclique.pyx:busgraph_cache.update_clique_cache"]}
{"id": "C37", "title": "Merging clique caches never loses quality", "statement": "After merging two caches, for each clique size available in either one the merged cache offers it with a maximum chain length not larger than either offered.", "quantifier": "all pairs of caches", "why_tests_cant": "all pairs of size/length profiles", "anchors": ["minorminer/busclique.pyx:busgraph_cache.merge_clique_cache", "minorminer/busclique.pyx:busgraph_cache.insert_clique_embedding"]}
{"id": "C38", "title": "find_biclique_embedding finds any cached biclique", "statement": "find_biclique_embedding(n, m) returns an embedding of K_{n,m} whenever the cache holds a biclique with sides at least n and m (in either orientation), and what it returns has the requested sides; of two cached bicliques with exchanged sides the one with shorter longest chain is used.", "quantifier": "all cache contents and all (n, m)", "why_tests_cant": "asymmetric sizes", "anchors": ["minorminer/busclique.pyx:busgraph_cache.find_biclique_embedding", "minorminer/busclique.pyx:_make_biclique_cache"]}
{"id": "C39", "title": "Best bicliques are kept across masks", "statement": "When several fault-avoiding masks are examined, for each pair of sides the biclique with the shortest maximum chain length over all masks is kept.", "quantifier": "all sequences of per-mask results", "why_tests_cant": "several masks only arise with missing couplers", "anchors": ["include/busclique/find_biclique.hpp:best_bicliques", "include/busclique/biclique_cache.hpp:biclique_yield_cache"]}
{"id": "C40", "title": "A crash never makes the on-disk cache unusable", "statement": "If the process dies at any point while updating the on-disk cache, every later call still works (at worst it recomputes).", "quantifier": "all histories of calls and all crash points", "why_tests_cant": "crash points cannot be enumerated by tests", "anchors": ["minorminer/busclique.pyx:busgraph_cache._fetch_cache", "minorminer/busclique.pyx:copy_on_close_context"]}
{"id": "C41", "title": "Concurrent processes share the on-disk cache safely", "statement": "For every interleaving of processes using the same cache directory, a reader never sees a partially written file and no call fails because of another process.", "quantifier": "all schedules of any number of processes", "why_tests_cant": "schedules cannot be enumerated", "anchors": ["minorminer/busclique.pyx:busgraph_cache._fetch_cache", "minorminer/busclique.pyx:copy_on_close_context"]}
{"id": "C42", "title": "The on-disk cache stays within its size limit", "statement": "Absent crashes, after each call the number of cached files recorded is at most the limit, the most recently used entries are the ones kept, and an evicted entry's file is removed.", "quantifier": "all call histories", "why_tests_cant": "long histories", "anchors": ["minorminer/busclique.pyx:busgraph_cache._fetch_cache"]}
{"id": "C43", "title": "Coordinate conversions are mutually inverse and in range", "statement": "Linear numbers and (y,x,u,k) / (u,w,k,z) coordinates of Chimera and Zephyr/Pegasus qubits convert back and forth without loss, different coordinates get different numbers, and all numbers are below the qubit count.", "quantifier": "all lattice dimensions and coordinates", "why_tests_cant": "all dimensions, including non-square ones", "anchors": ["include/busclique/coordinate_types.hpp:coordinate_converter"]}
{"id": "C44", "title": "Bit tables are right", "statement": "For every byte the population count, first set bit and bit mask tables have the right value.", "quantifier": "all 256 byte values", "why_tests_cant": "table transcription", "anchors": ["include/busclique/util.hpp:popcount", "include/busclique/util.hpp:first_bit", "include/busclique/util.hpp:mask_bit"]}
{"id": "C45", "title": "Fault masks avoid all missing couplers", "statement": "Each mask the clique search runs on removes at least one end of every missing internal coupler and never uses a line coupler at a removed qubit; when the missing couplers are few all endpoint choices are enumerated exactly once.", "quantifier": "all sets of missing couplers and all random streams", "why_tests_cant": "random vertex covers", "anchors": ["include/busclique/topo_cache.hpp:next", "include/busclique/topo_cache.hpp:compute_bad_edges"]}
{"id": "C46", "title": "Line bundles contain exactly the unbroken lines", "statement": "The cached mask for a line segment contains track k exactly when the segment's qubits and couplers of track k are all present.", "quantifier": "all fault patterns and segments", "why_tests_cant": "all fault patterns", "anchors": ["include/busclique/bundle_cache.hpp:compute_line_masks", "include/busclique/bundle_cache.hpp:get_line_mask"]}
{"id": "C47", "title": "Clique embeddings built from line bundles are valid", "statement": "The chains obtained from crossing vertical and horizontal lines (ells) are connected, pairwise disjoint and pairwise adjacent, so that they embed a complete graph.", "quantifier": "all fault patterns, rectangles and corners", "why_tests_cant": "all fault patterns", "anchors": ["include/busclique/bundle_cache.hpp:inflate", "include/busclique/clique_cache.hpp:clique_cache"]}
{"id": "C48", "title": "The clique search is optimal over its family", "statement": "For a given width the dynamic program yields a clique at least as large as any clique made of a sequence of ells of the considered family, and the extracted embedding has exactly the size the program computed.", "quantifier": "all fault patterns", "why_tests_cant": "optimality quantifies over all competitors", "anchors": ["include/busclique/clique_cache.hpp:clique_cache", "include/busclique/clique_cache.hpp:maxcache"]}
{"id": "C49", "title": "Small cliques are found exactly when they exist", "statement": "For sizes 1 to 4 the direct search returns that many distinct pairwise adjacent nodes, and fails only if the graph has no such clique. In Chimera, Pegasus and Zephyr graphs, where it serves to find chains of one qubit, nothing larger exists: the clique it gives is a largest one.", "quantifier": "all loop-free edge lists", "why_tests_cant": "all graphs", "anchors": ["include/busclique/small_cliques.hpp:find_generic_1", "include/busclique/small_cliques.hpp:find_generic_2", "include/busclique/small_cliques.hpp:find_generic_3", "include/busclique/small_cliques.hpp:find_generic_4"]}
{"id": "C50", "title": "find_clique_embedding always returns", "statement": "A clique request that fits into a single unit cell returns an embedding (with two-qubit chains) in bounded time.", "quantifier": "all cells and requested sizes", "why_tests_cant": "a hang is not an observable result and the code path is reached only without the cache", "anchors": ["include/busclique/cell_cache.hpp:inflate", "include/busclique/find_clique.hpp:find_clique_short"]}
{"id": "C51", "title": "Biclique line sums are the window sums", "statement": "The sliding-window score stored for a rectangle equals the number of unbroken lines crossing it, and the biclique obtained has those side sizes.", "quantifier": "all fault patterns and rectangles", "why_tests_cant": "window updates at boundaries", "anchors": ["include/busclique/biclique_cache.hpp:biclique_cache"]}
{"id": "C52", "title": "Random generator: deterministic, never stuck", "statement": "The generator is a deterministic function of its seed, its step is a bijection on states and it never reaches the all-zero state from a non-zero state, so that it never gets stuck; seeding never produces the zero state unless the stream of seed words is zero.", "quantifier": "all 64-bit seeds and all step counts", "why_tests_cant": "2^128 states", "anchors": ["include/fastrng.hpp:fastrng"]}
{"id": "C53", "title": "Serialised topology has the announced size", "statement": "The size computed for a serialised topology equals the number of bytes written, and equal byte strings come from equal topologies (dimensions, masks).", "quantifier": "all topologies and masks", "why_tests_cant": "all mask contents", "anchors": ["include/busclique/util.hpp:_serialize", "include/busclique/topo_cache.hpp:serialize"]}
{"id": "C54", "title": "Exceptions are translated to the documented Python errors", "statement": "Each library error reaches Python as its documented type (timeout, interrupt, parameter, initialisation and corrupt-embedding errors) and the most specific match wins.", "quantifier": "all error types", "why_tests_cant": "catch order matters only for subclasses", "anchors": ["minorminer/src/pyutil.hpp:handle_exceptions"]}
{"id": "C55", "title": "Connected subgraph enumeration by size", "statement": "The sets of candidate neighbourhoods listed under size k by the layout placement are exactly connected vertex sets of k nodes containing the start node.", "quantifier": "all graphs", "why_tests_cant": "all graphs", "anchors": ["minorminer/layout/placement.py:_get_connected_subgraphs"]}
{"id": "C56", "title": "A greedy pass is always defined", "statement": "miner.quickpass never reads or writes outside its tables and always ends, whatever the initial chains, listed nodes, bounds and the local_search flag.", "quantifier": "all graphs, chain parameters, node lists, bounds and random choices", "why_tests_cant": "undefined behaviour often goes unnoticed in a test", "anchors": ["include/find_embedding/pathfinder.hpp:quickPass", "include/find_embedding/pathfinder.hpp:find_short_chain", "include/find_embedding/embedding.hpp:flip_back"]}
{"id": "C57", "title": "A greedy pass respects chainlength_bound", "statement": "With a nonzero chainlength_bound, no node listed in miner.quickpass gets a chain longer than the bound and no other chain grows beyond the bound.", "quantifier": "all graphs, chain parameters, node lists, bounds and random choices", "why_tests_cant": "chains also grow after their own turn, by taking qubits from later chains", "anchors": ["include/find_embedding/pathfinder.hpp:quickPass", "include/find_embedding/chain.hpp:steal"]}
{"id": "C58", "title": "A greedy pass respects overlap_bound", "statement": "After miner.quickpass from chains that do not overlap, no target node is in more than 1 + overlap_bound chains; with overlap_bound 0 the chains are disjoint.", "quantifier": "all graphs, chain parameters, node lists, bounds and random choices", "why_tests_cant": "the bound is checked at one place of the search and skipped at another", "anchors": ["include/find_embedding/pathfinder.hpp:quickPass", "include/find_embedding/pathfinder.hpp:compute_distances_from_chain"]}
{"id": "C59", "title": "find_subgraph respects node and edge labels", "statement": "With node_labels and edge_labels given, every source node is mapped to a target node with the same label (nodes without a label have the empty label), and every source edge to a target edge with the same label in each direction.", "quantifier": "all graphs, all label dicts, all solvers that respect the labels they are given", "why_tests_cant": "labels meet isolated nodes, shuffles and edge lists in every combination", "anchors": ["minorminer/subgraph.pyx:find_subgraph", "minorminer/subgraph.pyx:_read_graph"]}
{"id": "C60", "title": "All stored clique embeddings are valid and as good as any nested-rectangle embedding", "statement": "For every working graph (any subgraph of a supported Chimera, Pegasus or Zephyr lattice, any seed) computing the clique cache succeeds; the embedding stored for chain length i is a valid clique embedding whose longest chain has exactly i qubits; and no embedding made from a sequence of nested rectangles in any of the examined fault-avoiding masks is larger than the largest stored one (for Chimera and Pegasus: than the largest one stored for the same bound on the chain length).", "quantifier": "all subgraphs of the lattices, all offsets, all random choices, all widths and sequences of rectangles", "why_tests_cant": "the number of fault patterns and of nested sequences is exponential", "anchors": ["include/busclique/find_clique.hpp:best_cliques", "include/busclique/clique_cache.hpp:clique_yield_cache", "minorminer/busclique.pyx:busgraph_cache.find_clique_embedding"]}
{"id": "C61", "title": "largest_clique_by_chainlength respects the bound and is the largest known", "statement": "busgraph_cache.largest_clique_by_chainlength(L) returns a valid clique embedding with chains of at most L qubits, and no stored clique embedding with chains of at most L qubits is larger; in particular the size never shrinks as L grows.", "quantifier": "all subgraphs of the lattices, all random choices, all L", "why_tests_cant": "depends on which entries the search leaves empty or small for each fault pattern", "anchors": ["minorminer/busclique.pyx:busgraph_cache.largest_clique_by_chainlength", "minorminer/busclique.pyx:_make_clique_cache"]}
{"id": "C62", "title": "largest_balanced_biclique returns the largest balanced biclique of the cache", "statement": "For every graph largest_balanced_biclique returns a valid embedding of K_{s,s}, where s is the largest number such that the cache holds a biclique both of whose sides have at least s chains.", "quantifier": "all graphs and all contents of the biclique cache", "why_tests_cant": "depends on which sides happen to be found; graphs without couplers are not tested", "anchors": ["minorminer/busclique.pyx:busgraph_cache.largest_balanced_biclique", "minorminer/busclique.pyx:_make_biclique_cache"]}
{"id": "C63", "title": "Uncached clique requests larger than a cell are answered", "statement": "find_clique_embedding(n, g, use_cache=False) with n larger than one side of a unit cell returns a valid embedding of K_n with exactly the requested labels whenever, in one of the masks searched, some sequence of nested rectangles supplies n chains, and an empty dictionary otherwise; in Chimera graphs no such sequence has shorter chains than those returned.", "quantifier": "all Chimera, Pegasus and Zephyr graphs with missing nodes and couplers, all n above the shore size, all random choices", "why_tests_cant": "the search space of nested rectangles is exponential and the best width depends on the defects", "anchors": ["include/busclique/find_clique.hpp:find_clique", "include/busclique/find_clique.hpp:find_clique_nice", "minorminer/busclique.pyx:find_clique_embedding"]}
{"id": "C64", "title": "Cache identifiers tell graphs apart", "statement": "Two graphs that get the same cache identifier (busgraph_cache.topology_identifier, and the key under which cliques and bicliques are stored on disk) are the same graph: the same lattice, the same qubits and the same couplers.", "quantifier": "all pairs of Chimera, Pegasus and Zephyr graphs with missing nodes and couplers", "why_tests_cant": "a collision can involve any of the exponentially many subgraphs", "anchors": ["minorminer/busclique.pyx:_serialize", "minorminer/busclique.pyx:busgraph_cache.topology_identifier", "include/busclique/util.hpp:serialize", "include/busclique/topo_cache.hpp:serialize"]}
{"id": "C65", "title": "Cached embeddings are valid for the graph asked about", "statement": "After any history of earlier busgraph_cache calls for any graphs, finished or killed, find_clique_embedding of a busgraph_cache returns chains that form a clique embedding in the graph it was made for, or nothing.", "quantifier": "all histories of calls, all graphs and kill points", "why_tests_cant": "depends on what other processes stored before, for any other graph", "anchors": ["minorminer/busclique.pyx:busgraph_cache._fetch_cache", "minorminer/busclique.pyx:busgraph_cache.find_clique_embedding", "minorminer/busclique.pyx:_serialize"]}
{"id": "C66", "title": "skip_initialization accepts exactly the complete initial embeddings", "statement": "With skip_initialization, find_embedding refuses the initial chains with an error exactly when they are not complete: some node without a fixed chain has no initial chain, or a disconnected one, or one that neither meets nor touches the chain of some neighbour. In particular every minor embedding is accepted.", "quantifier": "all graphs, fixed and initial chains, parameters and random choices", "why_tests_cant": "the links between initial chains are found by a traversal whose result depends on the shape of every pair of chains", "anchors": ["include/find_embedding/pathfinder.hpp:heuristicEmbedding", "include/find_embedding/embedding.hpp:linkup", "include/find_embedding/chain.hpp:adopt", "include/find_embedding/embedding.hpp:linked"]}
{"id": "C67", "title": "Several embeddings at once are all valid", "statement": "Every embedding returned by find_multiple_embeddings and find_sublattice_embeddings is a minor embedding of the source graph in the target graph, provided the embedder returns valid embeddings or nothing, whatever the tile, sublattice mappings, shuffling and tile embedding; a tile embedding that does not embed the source in the tile is refused.", "quantifier": "all graphs, tiles, mappings, limits, clocks and valid embedders", "why_tests_cant": "an embedding carried over from the tile may meet a defect or a used node anywhere", "anchors": ["minorminer/utils/parallel_embeddings.py:find_multiple_embeddings", "minorminer/utils/parallel_embeddings.py:find_sublattice_embeddings"]}
{"id": "C68", "title": "Packed rectangles do not overlap", "statement": "rpack.pack either raises ValueError, exactly when some width or height is not positive, or PackingImpossibleError, or returns one position per rectangle in the order of the input such that no coordinate is negative, no two rectangles overlap, and all lie within max_width and max_height. It never crashes or hangs.", "quantifier": "all lists of sizes, all limits, every behaviour of the C library's sort that the C standard allows", "why_tests_cant": "the packer keeps a table of jump targets over a growing grid that is wrong only for particular sequences of placements; the order of ties in the sort is open", "anchors": ["minorminer/_extern/rpack/__init__.py:pack", "minorminer/_extern/rpack/_core.pyx:pack", "minorminer/_extern/rpack/src/rpackcore.c:grid_find_region", "minorminer/_extern/rpack/src/rpackcore.c:grid_split", "minorminer/_extern/rpack/src/rpackcore.c:grid_search_bbox"]}
{"id": "C69", "title": "Packing without limits succeeds", "statement": "rpack.pack without limits returns a packing of every list of positive sizes, in a box no larger than the one with all rectangles beside each other.", "quantifier": "all lists of positive sizes, every allowed behaviour of the sort", "why_tests_cant": "the final packing must repeat, rectangle by rectangle, a search that ran in a larger grid over a differently sorted list", "anchors": ["minorminer/_extern/rpack/_core.pyx:pack", "minorminer/_extern/rpack/src/rpackcore.c:grid_search_bbox", "minorminer/layout/layout.py:_pack_components"]}
{"id": "C70", "title": "PackingImpossibleError means that there is no packing", "statement": "If rpack.pack raises PackingImpossibleError then there is no packing within the given limits.", "quantifier": "all lists of positive sizes and all limits", "why_tests_cant": "absence of a packing ranges over all placements", "anchors": ["minorminer/_extern/rpack/__init__.py:pack", "minorminer/_extern/rpack/_core.pyx:pack"]}
{"id": "C71", "title": "Packings are measured correctly", "statement": "bbox_size returns the smallest box from the origin that contains all rectangles; overlapping returns None exactly if no two rectangles share area, and otherwise the first overlapping pair; packing_density is the area of the rectangles over that of the box, above 0 and at most 1 for every packing.", "quantifier": "all sizes and positions", "why_tests_cant": "ranges over all placements; the bound on the density is a statement about areas of unions", "anchors": ["minorminer/_extern/rpack/_core.pyx:bbox_size", "minorminer/_extern/rpack/_core.pyx:packing_density", "minorminer/_extern/rpack/_core.pyx:overlapping"]}
{"id": "C72", "title": "A Layout has the dimension, centre and scale it was asked for", "statement": "Layout(G, positions, dim, center, scale) gives every node of G one point and has no other keys; the points are the given ones, padded by zeros to the given dimension, stretched by one common factor and shifted; the middle of their bounding box is the given centre (or the old one) and the largest distance of a coordinate from it is the given scale (or the old one). Setting scale or center later keeps the other.", "quantifier": "all graphs, all positions, all dimensions, centres and scales", "why_tests_cant": "three setters that recompute each other's inputs; a box must be correct for every cloud of points", "anchors": ["minorminer/layout/layout.py:Layout", "minorminer/layout/layout.py:_scale_layout", "minorminer/layout/layout.py:_center_layout", "minorminer/layout/layout.py:_dimension_layout"]}
{"id": "C73", "title": "Components of a graph are laid out apart", "statement": "A computed layout of a graph with several components gives every node a point, and there are rectangles that share no area, one for each component, that contain the points of their component.", "quantifier": "all graphs, all layout functions, all rotations", "why_tests_cant": "depends on the packing of arbitrarily many rectangles, and on rounding up of their sides", "anchors": ["minorminer/layout/layout.py:_pack_components", "minorminer/layout/layout.py:_rotate_to_minimize_area"]}
{"id": "C74", "title": "closest places every node on a connected set of the requested size nearest to it", "statement": "closest(S_layout, T_layout, subset_size, num_neighbors) maps every node of S to a connected set of nodes of T with a size within subset_size, which is among the num_neighbors sets whose barycentres are nearest to the node, and of those one that has the least distance plus overlap penalty.", "quantifier": "all layouts, sizes and numbers of neighbours", "why_tests_cant": "overlap counts depend on all nodes placed before; the subsets are looked up by position", "anchors": ["minorminer/layout/placement.py:closest", "minorminer/layout/placement.py:_minimize_overlap"]}
{"id": "C75", "title": "intersection places every node on a crossing of the lattice", "statement": "intersection maps every node of S to the qubits that cross at one grid point of the Chimera, Pegasus or Zephyr graph: at most one of each orientation, and the two are coupled in the lattice; the grid point is the one nearest to the position of the node after the layout was fitted into the grid.", "quantifier": "all lattices with any missing qubits, all layouts", "why_tests_cant": "grid coordinates must agree with the lattice for every size and offset; rounding must never leave the grid", "anchors": ["minorminer/layout/placement.py:intersection", "minorminer/layout/placement.py:_intersection_binning", "minorminer/layout/placement.py:_lookup_intersection_coordinates"]}
{"id": "C76", "title": "Layout-aware embeddings are valid", "statement": "minorminer.layout.find_embedding returns what minorminer.find_embedding returns for the same graphs with the placement as initial chains or suspend chains: a valid minor embedding or nothing; layout and placement parameters are split off, and the time they took is subtracted from the timeout.", "quantifier": "all graphs, layouts, placements, parameters and clocks", "why_tests_cant": "hints of any kind must not make a wrong embedding", "anchors": ["minorminer/layout/__init__.py:find_embedding", "minorminer/layout/__init__.py:_parse_kwargs", "minorminer/layout/__init__.py:_parse_layout_parameter"]}
{"id": "C77", "title": "A placement is computed from the source layout at the documented scale", "statement": "Placement(S_layout, T_layout, placement, scale_ratio) passes the placement function the source layout scaled so that the ratio of its scale to the scale of the target layout is scale_ratio, and unscaled if no scale_ratio is given; the target layout is passed as it is, and a mapping given as placement is used as it is.", "quantifier": "all layouts, placement functions, ratios", "why_tests_cant": "scales of any size and ratio; degenerate layouts", "anchors": ["minorminer/layout/placement.py:Placement"]}
{"id": "C78", "title": "The search ends soon after its time is up", "statement": "Once the timeout has passed or an interrupt is pending, the search returns after a number of passes over the source nodes that look at the clock which is at most the number of tries plus two.", "quantifier": "all inputs, parameters, random choices and times at which the timeout passes", "why_tests_cant": "the timeout may pass at any point of any of the nested loops", "anchors": ["include/find_embedding/find_embedding.hpp:pathfinder_public_interface", "include/find_embedding/pathfinder.hpp:check_stops", "include/find_embedding/pathfinder.hpp:heuristicEmbedding"]}
{"id": "C79", "title": "p_norm returns a layout whose distances match those of the graph", "statement": "p_norm returns a layout of the graph, centred at the requested centre and with the requested scale, in which the sum over pairs of nodes of the squared differences between p-norm distance and graph distance is at most that of any layout the minimiser improves upon, in particular the starting layout; the distances passed as G_distances are used where given.", "quantifier": "all graphs, in any order of nodes, all starting layouts, centres, scales, minimisers", "why_tests_cant": "rows of arrays must belong to the same nodes for every order of nodes", "anchors": ["minorminer/layout/layout.py:p_norm", "minorminer/layout/layout.py:_graph_distance_matrix", "minorminer/layout/layout.py:_p_norm_objective"]}
{"id": "C80", "title": "The gradient that p_norm passes to the minimiser is the gradient of its cost", "statement": "For p = 1, 2, ... and infinity and any dimension, the cost and the gradient that p_norm hands to the minimiser belong together: the gradient is the vector of partial derivatives of the cost wherever they exist.", "quantifier": "all numbers of nodes, dimensions, distances and positions", "why_tests_cant": "a statement about derivatives at every point", "anchors": ["minorminer/layout/layout.py:_p_norm_objective"]}
{"id": "C81", "title": "graph_layout fills the square asked for", "statement": "graph_layout of a Chimera, Pegasus or Zephyr graph is the drawing of the graph stretched along the two axes so that it fills the square of the given scale around the given centre (scale by default half the larger number of rows or columns); the further coordinates are those of the centre.", "quantifier": "all lattices with any missing qubits, drawings, centres, scales, dimensions", "why_tests_cant": "missing qubits may leave any extent, including none", "anchors": ["minorminer/layout/layout.py:graph_layout", "minorminer/layout/layout.py:_nx_to_graph_layout"]}
{"id": "C82", "title": "The search by tiles leaves out no place for the embedding of a tile", "statement": "If find_sublattice_embeddings with a tile embedding returns fewer embeddings than asked for and did not run out of time, then every image of the tile embedding under a sublattice mapping that is a valid embedding in the target meets one of the embeddings returned.", "quantifier": "all graphs, tiles, tile embeddings, sublattice mappings, limits", "why_tests_cant": "maximality over all mappings and all orders", "anchors": ["minorminer/utils/parallel_embeddings.py:find_sublattice_embeddings"]}
{"id": "C83", "title": "Line scores count unbroken lines", "statement": "hline_score and vline_score of an eden_processor return the number of unbroken paths of qubits in the given row or column range: all qubits work and consecutive ones are coupled.", "quantifier": "all sets of working couplers, grid dimensions, rows, columns and ranges", "why_tests_cant": "any combination of missing qubits and couplers", "anchors": ["minorminer/utils/polynomialembedder.py:eden_processor.hline_score", "minorminer/utils/polynomialembedder.py:eden_processor.vline_score", "minorminer/utils/polynomialembedder.py:eden_processor._compute_hline_scores", "minorminer/utils/polynomialembedder.py:eden_processor._compute_vline_scores"]}
{"id": "C84", "title": "Native cliques are clique embeddings", "statement": "If, among the couplers of working qubits, only ones between different cells are missing, then nativeCliqueEmbed(width), largestNativeClique and tightestNativeClique(n) return disjoint chains, any two of which are coupled; each chain is a path of working qubits, all of the same length (width + 1); tightestNativeClique returns n chains or none.", "quantifier": "all processors, widths, sizes, random choices and shuffles", "why_tests_cant": "all fault patterns and random choices", "anchors": ["minorminer/utils/polynomialembedder.py:eden_processor.nativeCliqueEmbed", "minorminer/utils/polynomialembedder.py:eden_processor.largestNativeClique", "minorminer/utils/polynomialembedder.py:eden_processor.tightestNativeClique", "minorminer/utils/polynomialembedder.py:eden_processor.maximum_ell_bundle"]}
{"id": "C85", "title": "nativeCliqueEmbed is optimal", "statement": "If no coupler between working qubits is missing, no native clique (sequence of ell-shaped blocks around a growing rectangle) with chains of width + 1 qubits has more chains than the one that nativeCliqueEmbed(width) returns, and the score is its number of chains.", "quantifier": "all processors with any missing qubits, widths, random choices", "why_tests_cant": "optimality over exponentially many block sequences", "anchors": ["minorminer/utils/polynomialembedder.py:eden_processor.nativeCliqueEmbed", "minorminer/utils/polynomialembedder.py:eden_processor.maxCliqueWithRectangle", "minorminer/utils/polynomialembedder.py:eden_processor._combine_clique_scores"]}
{"id": "C86", "title": "largestNativeClique is the largest with the shortest chains", "statement": "largestNativeClique returns the largest native clique whose chains are no longer than max_chain_length (any length by default), and among those of this size one with the shortest chains, even if couplers between cells are missing.", "quantifier": "all processors whose missing couplers are between cells, all limits, random choices", "why_tests_cant": "optimality over all block sequences and all lengths", "anchors": ["minorminer/utils/polynomialembedder.py:eden_processor.largestNativeClique"]}
{"id": "C87", "title": "tightestNativeClique has the shortest chains", "statement": "tightestNativeClique(n) returns n chains of a native clique with the shortest chains possible and the score n, or reports failure if there is no native clique with n chains.", "quantifier": "all processors, sizes, random choices", "why_tests_cant": "minimality over all lengths and block sequences", "anchors": ["minorminer/utils/polynomialembedder.py:eden_processor.tightestNativeClique"]}
{"id": "C88", "title": "Bicliques of rectangles", "statement": "For every rectangle of the grid, biclique returns two sides of disjoint paths of working qubits, every chain of one side coupled to every chain of the other, if couplers between working qubits are missing only between different cells; the sides are all unbroken horizontal and all unbroken vertical lines across the rectangle, and biclique_size returns their numbers.", "quantifier": "all processors with any missing qubits and couplers between cells, all rectangles", "why_tests_cant": "any combination of missing qubits and couplers and any rectangle", "anchors": ["minorminer/utils/polynomialembedder.py:eden_processor.biclique", "minorminer/utils/polynomialembedder.py:eden_processor.biclique_size"]}
{"id": "C89", "title": "largestNativeBiClique is the largest with the shortest chains", "statement": "largestNativeBiClique returns a valid biclique embedding whose chains respect max_chain_length and chain_imbalance (None is no limit). Its smaller side is as large as possible, then its larger side, among native bicliques within these limits; then its chains are as short as possible; the score is the pair of sizes, smaller first.", "quantifier": "all processors, all limits, all orders of set iteration", "why_tests_cant": "optimality over all rectangles for all fault patterns, independent of the order of sets", "anchors": ["minorminer/utils/polynomialembedder.py:eden_processor.largestNativeBiClique", "minorminer/utils/polynomialembedder.py:eden_processor._compute_biclique_sizes"]}
{"id": "C90", "title": "tightestNativeBiClique has the shortest chains", "statement": "tightestNativeBiClique(n, m) returns a valid biclique embedding with sides of exactly n and m chains within max_chain_length and chain_imbalance, with the shortest chains possible, and the score (min(n, m), max(n, m)); or None, if the processor has no such native biclique.", "quantifier": "all processors, sizes, limits, orders of set iteration", "why_tests_cant": "minimality over all rectangles for all fault patterns", "anchors": ["minorminer/utils/polynomialembedder.py:eden_processor.tightestNativeBiClique"]}
{"id": "C91", "title": "Linear labels of Chimera graphs", "statement": "Conversion of Chimera coordinates to linear labels and back are inverse to each other on the qubits of every Chimera graph; the labels are the numbers from 0 to 2MNL-1; the list of neighbours of a qubit has exactly the qubits of the graph coupled to it, each once.", "quantifier": "all dimensions, all qubits and labels", "why_tests_cant": "all dimensions and labels", "anchors": ["minorminer/utils/polynomialembedder.py:_to_linear", "minorminer/utils/polynomialembedder.py:_to_chimera", "minorminer/utils/polynomialembedder.py:_chimera_neighbors"]}
{"id": "C92", "title": "processor embeddings are valid whatever is missing", "statement": "For any subgraph of a Chimera graph, with any missing qubits and couplers, inside of cells or between them, nativeCliqueEmbed, largestNativeClique, tightestNativeClique, largestNativeBiClique and tightestNativeBiClique of processor return valid embeddings of complete and complete bipartite graphs in the given graph, with the numbers of chains and chain lengths asked for; also with linear labels.", "quantifier": "all subgraphs of Chimera graphs, all limits, all random choices", "why_tests_cant": "any set of missing couplers, any random choice", "anchors": ["minorminer/utils/polynomialembedder.py:processor", "minorminer/utils/polynomialembedder.py:processor._map_to_processors", "minorminer/utils/polynomialembedder.py:processor._translate"]}
{"id": "C93", "title": "processor embeddings are optimal with few missing couplers inside of cells", "statement": "If 2 to the number of missing couplers between working qubits of the same cell is at most proc_limit, the searches of processor examine exactly the minimal sets of qubits whose deletion leaves no such coupler missing, and return what is best over all induced subgraphs without such missing couplers: the largest clique and biclique with the shortest chains, the tightest clique and biclique of given size, or nothing only if there is none.", "quantifier": "all subgraphs of Chimera graphs with few missing couplers inside of cells, all random choices", "why_tests_cant": "optimality over all induced subgraphs and all native embeddings", "anchors": ["minorminer/utils/polynomialembedder.py:processor._compute_all_deletions", "minorminer/utils/polynomialembedder.py:processor._objective_bestscore", "minorminer/utils/polynomialembedder.py:processor._objective_qubitcount"]}
{"id": "C94", "title": "Subprocessors examined", "statement": "At most proc_limit sets of deleted qubits are examined; each leaves every pair of working qubits on opposite sides of a cell coupled; random ones are minimal: adding a qubit back in reintroduces a missing coupler. With a limit that is not positive the searches raise StopIteration.", "quantifier": "all processors, limits, random choices", "why_tests_cant": "all random choices", "anchors": ["minorminer/utils/polynomialembedder.py:processor._random_subprocessors", "minorminer/utils/polynomialembedder.py:processor._random_subprocessor", "minorminer/utils/polynomialembedder.py:processor._compute_deletions"]}
{"id": "C95", "title": "random_processor", "statement": "random_processor gives exactly the Chimera couplers between the sampled qubits, each once, except for num_evil of those inside of cells, or all of these if there are fewer; it has num_evil broken in-cell couplers between working qubits. For a yield between 0 and 1 and num_evil at least 0 it raises nothing and samples the integer part of the rounded product of the yield and the number of qubits, all qubits for yield 1; it raises ValueError for a negative num_evil and for yields that ask for more than all qubits or for less than none.", "quantifier": "all dimensions, yields, samples, numbers", "why_tests_cant": "all samples", "anchors": ["minorminer/utils/polynomialembedder.py:random_processor"]}
{"id": "C96", "title": "Histories of calls on a miner", "statement": "Whatever calls of find_embedding, quickpass and set_initial_chains are made on a miner, in whatever order: every call is answered; a search that reports success returns a valid embedding with the fixed chains, a search that fails returns nothing, or with return_overlap a list of target nodes for each source node; there is no undefined behaviour and no endless loop. One search by a new miner returns what the function find_embedding returns.", "quantifier": "all problems, parameters, random choices and histories of calls", "why_tests_cant": "state left by any history of calls", "anchors": ["minorminer/_minorminer.pyx:miner", "include/find_embedding/find_embedding.hpp:pathfinder_wrapper", "include/find_embedding/pathfinder.hpp:heuristicEmbedding", "include/find_embedding/pathfinder.hpp:quickPass", "include/find_embedding/pathfinder.hpp:set_initial_chains"]}
{"id": "C97", "title": "Flag of a reused miner", "statement": "With return_overlap the flag returned by each search of a miner says whether the chains returned with it form a valid embedding.", "quantifier": "all histories of calls, all times at which a search is stopped", "why_tests_cant": "the state left by earlier calls and the time of the stop", "anchors": ["minorminer/_minorminer.pyx:miner.find_embedding", "include/find_embedding/pathfinder.hpp:heuristicEmbedding", "include/find_embedding/pathfinder.hpp:initialization_pass"]}
{"id": "C98", "title": "Mistakes in chains raise exceptions", "statement": "Chains that cannot be used, given to the constructor of a miner, to set_initial_chains or to improve_embeddings, raise a Python exception; they do not end the process.", "quantifier": "all problems, chains and histories of calls", "why_tests_cant": "all chains, any history", "anchors": ["minorminer/_minorminer_h.pxi:pathfinder_wrapper", "minorminer/_minorminer.pyx:miner.set_initial_chains", "minorminer/_minorminer.pyx:miner.improve_embeddings", "include/find_embedding/find_embedding.hpp:parameter_processor"]}
{"id": "C99", "title": "Greedy passes without overlaps", "statement": "With overlap_bound 0 the chains after any sequence of greedy passes, whether each starts from the initial chains or goes on from the pass before, are connected, pairwise disjoint, and joined if their source nodes are neighbours, so that they form a valid embedding once every node has one. The first pass starts from the initial chains whatever clear_first says. Asking for an earlier order before there is one is refused.", "quantifier": "all histories of greedy passes", "why_tests_cant": "any number of passes in any order", "anchors": ["minorminer/_minorminer.pyx:miner.quickpass", "include/find_embedding/pathfinder.hpp:quickPass", "include/find_embedding/embedding_problem.hpp:var_order"]}
{"id": "C100", "title": "Starting from an embedding never makes it worse", "statement": "If fixed and initial chains together form a valid embedding, the search succeeds, unless it is stopped before its first look at the clock is over or interrupted, and its result is no worse: comparing from the greatest length downwards, the first difference in the number of chains of a length is in favour of the result.", "quantifier": "all problems, embeddings, parameters, random choices, times of stops", "why_tests_cant": "all random choices and all embeddings", "anchors": ["minorminer/_minorminer.pyx:find_embedding", "include/find_embedding/pathfinder.hpp:heuristicEmbedding", "include/find_embedding/pathfinder.hpp:check_improvement"]}
{"id": "C101", "title": "find_embeddings", "statement": "find_embeddings returns at most n embeddings, all valid; with force exactly n, retrying failures until n successes are counted; if there is no embedding, force never lets the call return.", "quantifier": "all problems, n, random choices", "why_tests_cant": "any number of retries", "anchors": ["minorminer/_minorminer.pyx:miner.find_embeddings"]}
{"id": "C102", "title": "improve_embeddings", "statement": "improve_embeddings returns one result for each set of chains, in order; each is empty or a valid embedding; a set of chains that is a valid embedding gives one with no longer chains unless the search is stopped.", "quantifier": "all problems, lists of chains, random choices", "why_tests_cant": "the state left by earlier rounds", "anchors": ["minorminer/_minorminer.pyx:miner.improve_embeddings"]}
{"id": "C103", "title": "Distances fit into 64 bits", "statement": "While a chain is searched for, no sum of weights or distances exceeds what a 64-bit integer holds, and none but unreachable qubits gets the value that stands for 'no distance': the search does what it would do with numbers of any size.", "quantifier": "all problems, all states of a run, all parameters, both pathfinders", "why_tests_cant": "needs the worst case over all paths, fills and neighbours; an overflow usually goes unnoticed", "anchors": ["include/find_embedding/pathfinder.hpp:compute_distances_from_chain", "include/find_embedding/pathfinder.hpp:accumulate_distance", "include/find_embedding/embedding_problem.hpp:populate_weight_table", "include/find_embedding/embedding_problem.hpp:weight"]}
{"id": "C104", "title": "Problems too small or too large for the weights", "statement": "A problem is refused as having too few nodes or edges only if no target node is free; a problem so large that sums of weights would not fit is refused as too large.", "quantifier": "all problems of all sizes", "why_tests_cant": "no test builds a problem with billions of pairs", "anchors": ["include/find_embedding/embedding_problem.hpp:compute_margin", "include/find_embedding/embedding_problem.hpp:reset_mood"]}
{"id": "C105", "title": "max_fill limits the chains sharing a target node", "statement": "No target node is in more chains of a returned (possibly overlapping) embedding than max_fill allows, unless initial_chains crowd it more; with max_fill=1 whatever is returned is a valid embedding or has empty chains. Values above 63 are treated as 63, others are used as they are.", "quantifier": "all problems, parameters, random draws and stops", "why_tests_cant": "the limit could be exceeded in one of many passes, by a rare sequence of replacements", "anchors": ["minorminer/_minorminer.pyx:find_embedding", "include/find_embedding/embedding_problem.hpp:reset_mood", "include/find_embedding/pathfinder.hpp:pushdown_overfill_pass", "include/find_embedding/pathfinder.hpp:find_chain"]}
{"id": "C106", "title": "Negative counts", "statement": "tries, inner_rounds, max_no_improvement and chainlength_patience may be any int. A success reported with negative counts is still a valid embedding; counts that are not negative never make the counters overflow; negative tries mean that the call does not give up before it is stopped; every call returns.", "quantifier": "all problems without restrict_chains, all values of the four counts, all random draws, all stops", "why_tests_cant": "a run with a negative count ends only by chance or timeout, and the counters wrap after billions of steps", "anchors": ["include/find_embedding/pathfinder.hpp:heuristicEmbedding", "include/find_embedding/pathfinder.hpp:pushdown_overfill_pass", "include/find_embedding/util.hpp:optional_parameters", "minorminer/_minorminer.pyx:find_embedding"]}
{"id": "C107", "title": "Keyword parameters mean what the documentation says", "statement": "find_embedding accepts exactly the documented keyword parameters, in any order, and refuses others before it looks at the graphs; each parameter has the value given (converted, and refused if it does not fit) or its documented default, and that value governs the search; a given seed makes the result independent of the system's randomness; miner(S, T, **params).find_embedding() does the same as find_embedding(S, T, **params); an interrupted call returns the best embedding found so far; verbose may be 0 to 4.", "quantifier": "all dicts of keyword arguments and all Python objects as values, all graphs, seeds, clocks and interrupts", "why_tests_cant": "seventeen parameters with arbitrary objects as values; the effect of a default shows only for some graphs and seeds", "anchors": ["minorminer/minorminer.py:find_embedding", "minorminer/_minorminer.pyx:_input_parser", "minorminer/_minorminer.pyx:miner", "include/find_embedding/util.hpp:optional_parameters", "include/find_embedding/find_embedding.hpp:findEmbedding", "minorminer/_minorminer_h.pxi:pathfinder_wrapper"]}
{"id": "C108", "title": "The timeout parameter", "statement": "A call stops when timeout seconds have passed since it started, for every number given as timeout; with a timeout that is not positive it finds nothing.", "quantifier": "all doubles including infinities and not-a-number, all start times and clocks, all graphs and other parameters", "why_tests_cant": "timeouts of centuries do not expire in a test, and undefined behaviour may look right on one compiler", "anchors": ["include/find_embedding/pathfinder.hpp:heuristicEmbedding", "include/find_embedding/util.hpp:LocalInteraction", "minorminer/_minorminer.pyx:_input_parser"]}
{"id": "C109", "title": "Regularising keeps a clique embedding valid", "statement": "For every valid clique embedding with at least one chain, regularisation ends and gives a valid embedding of as many nodes, in the same order, each chain containing the old one and none longer than the longest was; if it leaves a chain shorter than that, no qubit outside the embedding can be assigned any more. It is not promised, and not true, that all chains become equal where that is possible.", "quantifier": "all graphs, all valid embeddings, every maximum matching that networkx may return", "why_tests_cant": "the result depends on which maximum matching is found; termination needs a measure", "anchors": ["minorminer/busclique.pyx:_regularize_embedding"]}
{"id": "C110", "title": "Mining for clique embeddings", "statement": "mine_clique_embeddings returns a cache all of whose answers are valid embeddings with one chain for each node, and stores it for the graph; with a quality function every answer is at least as good as that of each seed's cache and as each embedding found by the heuristic; an existing cache on disk is augmented, so that repeated calls can only improve it.", "quantifier": "all graphs, seeds, quality functions, results of the heuristic, contents of the disk cache", "why_tests_cant": "depends on random seeds, on earlier calls and on what the heuristic finds", "anchors": ["minorminer/busclique.pyx:mine_clique_embeddings", "minorminer/busclique.pyx:busgraph_cache.merge_clique_cache", "minorminer/busclique.pyx:busgraph_cache.insert_clique_embedding", "minorminer/busclique.pyx:_default_quality_function"]}
{"id": "C111", "title": "Clique and biclique embeddings by size or labels", "statement": "find_clique_embedding and find_biclique_embedding of the Chimera, Pegasus and Zephyr utilities return a valid embedding with one chain for every label asked for (a number k standing for 0, ..., k-1), whenever the cache of the graph holds one that is large enough, and otherwise raise ValueError; labels given twice or on both shores are refused; the target is the graph given or the lattice of the given size, with the documented defaults and type errors.", "quantifier": "all labels or numbers, all valid cache contents, all parameters", "why_tests_cant": "depends on which sizes the cache of a faulty graph holds, and on duplicates and overlaps among labels", "anchors": ["minorminer/utils/chimera.py:find_clique_embedding", "minorminer/utils/chimera.py:find_biclique_embedding", "minorminer/utils/chimera.py:_get_target_graph", "minorminer/utils/pegasus.py:find_clique_embedding", "minorminer/utils/pegasus.py:find_biclique_embedding", "minorminer/utils/zephyr.py:find_clique_embedding", "minorminer/utils/zephyr.py:find_biclique_embedding"]}
{"id": "C112", "title": "Graphs with coordinate labels", "statement": "For Chimera, Pegasus and Zephyr graphs labelled with integers, coordinates or (Pegasus) nice coordinates, clique and biclique embeddings are returned in the labels of the graph and are valid there; embeddings returned can be inserted again; a cache exported from a graph can be imported again; other labels raise ValueError.", "quantifier": "all subgraphs of the lattices, all ways of labelling, all clique and biclique requests", "why_tests_cant": "conversions must be inverse to each other for all lattice sizes and tile sizes", "anchors": ["minorminer/busclique.pyx:_make_relabeler", "minorminer/busclique.pyx:_trivial_relabeler", "minorminer/busclique.pyx:_zephyr_busgraph.__cinit__", "minorminer/busclique.pyx:_pegasus_busgraph.__cinit__", "minorminer/busclique.pyx:_chimera_busgraph.__cinit__", "minorminer/busclique.pyx:busgraph_cache.update_clique_cache"]}
{"id": "C113", "title": "Clearing all caches", "statement": "clear_all_caches returns, removes the cache directories of all versions up to the current one with everything in them, and touches nothing else; a second call does nothing.", "quantifier": "all contents of the file system, all depths of directories", "why_tests_cant": "deleting must terminate and stay inside the cache for every directory tree", "anchors": ["minorminer/busclique.pyx:busgraph_cache.clear_all_caches", "minorminer/busclique.pyx:busgraph_cache.cache_rootdir"]}
{"id": "C114", "title": "Threads do not change the outcome", "statement": "With several threads, the distances and paths found for a variable, and so the chain it is given, do not depend on how the threads are scheduled nor on their number; no schedule deadlocks, runs forever, races or touches memory it must not, and each chain found is one the search without threads can find.", "quantifier": "all problems, reachable embeddings, numbers of threads, interleavings and leftovers in memory", "why_tests_cant": "a test sees a few interleavings of the threads; a race shows in none or one of them", "anchors": ["include/find_embedding/pathfinder.hpp:pathfinder_parallel::prepare_root_distances", "include/find_embedding/pathfinder.hpp:pathfinder_parallel::run_in_thread", "include/find_embedding/pathfinder.hpp:pathfinder_parallel::exec_chunked", "include/find_embedding/pathfinder.hpp:pathfinder_parallel::exec_indexed", "include/find_embedding/pathfinder.hpp:pathfinder_base::compute_distances_from_chain"]}
{"id": "C115", "title": "Drawings show the embedding", "statement": "The fragment graph drawn for a Chimera, Pegasus or Zephyr graph consists of the pieces of its qubits, placed in a Chimera lattice, joined just where one qubit continues or two coupled qubits meet. Contracting the pieces of each qubit gives back the graph, and a clique embedding is drawn as a valid embedding just if it is one.", "quantifier": "all supported graphs with any missing qubits and couplers, all chains and embeddings", "why_tests_cant": "a picture is checked by eye on small perfect lattices; faults and borders are many", "anchors": ["minorminer/busclique.pyx:busgraph_cache.draw_fragment_embedding", "minorminer/busclique.pyx:fragment_graph_spec", "minorminer/busclique.pyx:fragment_nodes", "include/busclique/topo_cache.hpp:topo_cache::fragment_nodes", "include/busclique/topo_cache.hpp:topo_cache::fragment_edges", "include/busclique/util.hpp:fragment_nodes"]}
{"id": "C116", "title": "The same question gets the same clique embedding", "statement": "A call of find_clique_embedding with a graph, node labels and a seed gives the answer it would give alone, with an empty cache, whatever calls were made before (some of them killed), whatever uninitialised memory holds and whatever random bytes the system gives. With the cache and without a seed, the seed is 0. If few internal couplers are missing the seed makes no difference at all. Answers are empty or valid in the graph of the call; unsupported graphs and seeds that do not fit raise and change nothing.", "quantifier": "all histories of calls with any graphs, labels and seeds; all kill points outside of eviction; all random generators and contents of memory", "why_tests_cant": "which earlier call fills the cache, what the memory holds and how a graph lists its edges differ between machines and days; a test sees one history", "anchors": ["minorminer/busclique.pyx:find_clique_embedding", "minorminer/busclique.pyx:busgraph_cache.__init__", "minorminer/busclique.pyx:busgraph_cache.find_clique_embedding", "minorminer/busclique.pyx:_chimera_busgraph", "minorminer/busclique.pyx:_pegasus_busgraph", "minorminer/busclique.pyx:_zephyr_busgraph", "minorminer/busclique.pyx:_num_nodes", "include/busclique/topo_cache.hpp:topo_cache", "include/busclique/bundle_cache.hpp", "include/busclique/find_clique.hpp:best_cliques"]}
{"id": "C117", "title": "Only the graphs, the chains and the seed decide the outcome", "statement": "With other names for the nodes, of whatever type, a call of find_embedding or of a miner ends in the same way with the renamed embedding. The order of the items of fixed_chains, initial_chains and restrict_chains does not matter. Two calls with the same arguments and the same random_seed, neither of them stopped by an interrupt or the timeout, end in the same way with the same embedding, on machines of any speed and at any time.", "quantifier": "all graphs, chains, parameters, injective renamings, orders of items, clocks and random bytes of the system", "why_tests_cant": "a test sees a few names, orders and machines; hash-dependent or time-dependent behaviour shows elsewhere", "anchors": ["minorminer/_minorminer.pyx:_input_parser", "minorminer/_minorminer.pyx:_get_chainmap", "minorminer/_minorminer.pyx:labeldict", "minorminer/_minorminer.pyx:_read_graph", "minorminer/_minorminer.pyx:find_embedding", "minorminer/_minorminer.pyx:miner.find_embedding", "include/find_embedding/pathfinder.hpp:pathfinder_base", "minorminer/minorminer.py:find_embedding"]}
{"id": "C118", "title": "The same question gets the same biclique embedding", "statement": "A query for a biclique, or for the largest balanced one, to a busgraph_cache made with a graph and a seed gives the answer it would give alone, with an empty cache, whatever queries were made before to other objects (some of them killed), whatever uninitialised memory holds and whatever random bytes the system gives. If few internal couplers are missing the seed makes no difference. Answers are valid in the graph of the query, have the two sides asked for, or are empty; graphs of other kinds and seeds that do not fit raise and change nothing.", "quantifier": "all histories of queries with any graphs, labels and seeds; all kill points outside of eviction; all random generators and contents of memory", "why_tests_cant": "which earlier query fills the cache and what the memory holds differ between machines and days; a test sees one history", "anchors": ["minorminer/busclique.pyx:busgraph_cache.__init__", "minorminer/busclique.pyx:busgraph_cache.find_biclique_embedding", "minorminer/busclique.pyx:busgraph_cache.largest_balanced_biclique", "minorminer/busclique.pyx:busgraph_cache._fetch_cache", "minorminer/busclique.pyx:_make_biclique_cache", "include/busclique/find_biclique.hpp:best_bicliques", "include/busclique/topo_cache.hpp:topo_cache"]}
{"id": "C119", "title": "Bicliques that are plainly there are found", "statement": "If in a rectangle of cells of the target there are a vertical and b horizontal lines going all the way through it, each coupled to all lines it crosses, and at most six internal couplers are missing in the whole graph, then the biclique search finds a biclique with at least a and b chains, a query for any biclique whose larger side is at most min(a, b) returns a valid embedding, and largest_balanced_biclique returns one with sides of at least min(a, b) chains. In particular in graphs without faults: n t and m t chains in chimera_graph(m, n, t), 2 t (2 m - 1) on either side in zephyr_graph(m, t), and 12 (m - 1) - 2 (hi - lo) on either side in pegasus_graph(m) with offsets (halved) between lo and hi.", "quantifier": "all graphs of the three families with at most six missing internal couplers, all sizes, all rectangles, lines and draws; all histories of earlier queries", "why_tests_cant": "tests look at a few sizes and a few faults; that no fault pattern makes the search lose what is there is a statement about all of them", "anchors": ["minorminer/busclique.pyx:busgraph_cache.find_biclique_embedding", "minorminer/busclique.pyx:busgraph_cache.largest_balanced_biclique", "include/busclique/find_biclique.hpp:best_bicliques", "include/busclique/biclique_cache.hpp:biclique_cache.compute_cache", "include/busclique/biclique_cache.hpp:biclique_yield_cache", "include/busclique/topo_cache.hpp:topo_cache.next", "include/busclique/bundle_cache.hpp:bundle_cache.score"]}
{"id": "C120", "title": "Cliques that are plainly there are found", "statement": "If at most six internal couplers are missing in the whole graph, then the clique search finds a clique with at least as many chains as there are ells made of unbroken, mutually coupled lines in any sequence of nested rectangles of cells, and find_clique_embedding returns a valid embedding for every set of at most that many (and at least 5) labels, with the cache, and without it if there are more labels than tracks on one side of a cell (C50 is about fewer). In particular in graphs without faults: W t chains of at most W + 1 qubits in chimera_graph(m, n, t) for W up to m and n, 2 t (2 m - 1) chains in zephyr_graph(m, t) for m at least 2, and 12 (m - 1) chains in pegasus_graph(m) with the usual offsets for m at least 4.", "quantifier": "all graphs of the three families with at most six missing internal couplers, all sizes, rectangles, lines, draws and labels; all histories of earlier calls", "why_tests_cant": "tests look at a few sizes and a few faults; that no fault pattern makes the search lose what is there is a statement about all of them", "anchors": ["minorminer/busclique.pyx:find_clique_embedding", "minorminer/busclique.pyx:busgraph_cache.find_clique_embedding", "include/busclique/find_clique.hpp:best_cliques", "include/busclique/find_clique.hpp:find_clique", "include/busclique/clique_cache.hpp:clique_cache.compute_cache", "include/busclique/clique_cache.hpp:clique_yield_cache", "include/busclique/topo_cache.hpp:topo_cache.next"]}
{"id": "C121", "title": "Largest native cliques are chosen at random, all with the same chance", "statement": "The on-line selection described in the documentation picks each object with a chance in proportion to its weight. If no coupler between working qubits of neighbouring cells is missing, nativeCliqueEmbed can return each of the largest native cliques with chains of the given length, and returns all of them with the same chance.", "quantifier": "all Chimera graphs, chain lengths, largest native cliques and streams of objects with weights; probabilities over independent uniform results of randint", "why_tests_cant": "a chance is a statement about all sequences of random numbers; tests see a few of them, and a small bias looks like noise", "anchors": ["minorminer/utils/polynomialembedder.py:_accumulate_random", "minorminer/utils/polynomialembedder.py:eden_processor.maxCliqueWithRectangle", "minorminer/utils/polynomialembedder.py:eden_processor.nativeCliqueEmbed", "minorminer/utils/polynomialembedder.py:processor.largestNativeClique"]}
{"id": "C122", "title": "Options of find_subgraph reach the solver as documented", "statement": "find_subgraph raises an exception if an option has a name that is not known, or if a parameter is given that does not belong to the restart policy; otherwise the solver runs with every option as given, or with the documented default, which for some options depends on parallel.", "quantifier": "all combinations of options and all constants of the solver", "why_tests_cant": "there are more than a million combinations of options given and left out, and wrong options rarely change the answer", "anchors": ["minorminer/subgraph.pyx:find_subgraph", "minorminer/subgraph.pyx:_check_kwarg"]}
{"id": "C123", "title": "Sources without edges are always embedded", "statement": "find_embedding finds an embedding of every source graph without edges (self-loops do not count) in every target with at least as many nodes.", "quantifier": "all source graphs without edges, all targets, all random draws, all settings of the search", "why_tests_cant": "the outcome depends on the draws and on all settings, and every size has its own run", "anchors": ["include/find_embedding/find_embedding.hpp:findEmbedding", "include/find_embedding/pathfinder.hpp:initialization_pass", "include/find_embedding/pathfinder.hpp:prepare_root_distances", "include/find_embedding/embedding_problem.hpp:populate_weight_table"]}
{"id": "C124", "title": "The self-check of debugging builds raises no false alarm", "statement": "In a debugging build the self-check that runs after every change of an embedding never throws CorruptEmbeddingException in a state of a search, as long as its two flags (initialized, embedded) tell the truth; the check of a single chain reports a missing qubit exactly when a link or parent lies outside the chain, and a wrong count exactly when the count of a referenced qubit is wrong.", "quantifier": "all problems, all states that arise in a search, all settings of the two flags that are true of the state; all chains for the check of one chain", "why_tests_cant": "the check looks at a state reached by any sequence of operations; a test run reaches few of them", "anchors": ["include/find_embedding/embedding.hpp:run_long_diagnostic", "include/find_embedding/embedding.hpp:long_diagnostic", "include/find_embedding/chain.hpp:run_diagnostic"]}
{"id": "C125", "title": "What the self-check of debugging builds accepts is an embedding", "statement": "A state that the self-check accepts while its flags say that the search is initialized and that an embedding was found is a minor embedding: chains of free variables are connected and disjoint, and chains of neighbours are joined by a coupler.", "quantifier": "all problems and all states, however they were reached", "why_tests_cant": "the claim is about every state, also corrupted ones that no run of the present code reaches", "anchors": ["include/find_embedding/embedding.hpp:run_long_diagnostic", "include/find_embedding/chain.hpp:run_diagnostic"]}
{"id": "C126", "title": "The clique iterator lists every largest clique of a width", "statement": "An iterator over the cliques of a width (C++ API, clique_iterator) never reads outside of its tables and never hangs; its calls of next return embeddings and then always false; each embedding is a clique embedding that no sequence of nested rectangles of this width beats, and every sequence of nested rectangles with so many chains is among them.", "quantifier": "all Chimera, Pegasus and Zephyr graphs with any missing qubits and couplers, all masks searched, all checks on the ells, all widths of at least 2 that fit, any number of calls", "why_tests_cant": "the state of the iterator is a stack of partly used choices whose size depends on the width; that nothing is left out concerns all of exponentially many sequences", "anchors": ["include/busclique/clique_cache.hpp:clique_iterator", "include/busclique/clique_cache.hpp:grow_stack", "include/busclique/clique_cache.hpp:advance"]}
{"id": "C127", "title": "find_subgraph misses nothing", "statement": "If some mapping of the requested injectivity takes every source node to a target node, edges to edges, and keeps the labels of edges and of nodes with edges, then find_subgraph returns such a mapping, unless its solver is stopped by the time limit or an interrupt; so, for a source with nodes, an empty answer means that there is none.", "quantifier": "all graphs and edge lists with any isolated nodes and loops, all labels, all three kinds of injectivity, all shuffles, every solver that answers whenever there is an answer", "why_tests_cant": "that something is never missed concerns all pairs of graphs; isolated nodes and labels pass around the solver", "anchors": ["minorminer/subgraph.pyx:find_subgraph", "minorminer/subgraph.pyx:_read_graph"]}
{"id": "C128", "title": "find_multiple_embeddings goes on while there is room", "statement": "If find_multiple_embeddings returns fewer embeddings than max_num_emb (or max_num_emb is None) and its time was not up, then every embedding of the requested kind that the target graph has shares a target node with one of those returned, as long as the embedder finds an embedding whenever there is one. The feasibility filter does not spoil this for a source graph without loops.", "quantifier": "all source graphs with nodes, all target graphs, one-to-one and chain-valued embedders, every thorough embedder, with and without filter and shuffling, any limit", "why_tests_cant": "maximality over all embeddings of a graph, after any number of rounds", "anchors": ["minorminer/utils/parallel_embeddings.py:find_multiple_embeddings", "minorminer/utils/feasibility.py:embedding_feasibility_filter"]}
{"id": "C129", "title": "find_sublattice_embeddings without a tile embedding leaves no place out", "statement": "If find_sublattice_embeddings searches each sublattice for one-to-one embeddings (no embedding for the tile is used), returns fewer than max_num_emb embeddings and its time was not up, then every one-to-one embedding of the source graph in the target graph that lies within one of the sublattices shares a target node with an embedding that was returned, as long as the embedder finds an embedding whenever there is one. The check of the tile that the filter makes first does not spoil this, since sublattices have no edges that the tile lacks.", "quantifier": "all source graphs with nodes, all target graphs and tiles, all lists of sublattice mappings, every thorough embedder, with and without filter, any limit, copied or not", "why_tests_cant": "maximality over all embeddings in all overlapping sublattices, after any number of removals", "anchors": ["minorminer/utils/parallel_embeddings.py:find_sublattice_embeddings", "minorminer/utils/parallel_embeddings.py:find_multiple_embeddings", "minorminer/utils/feasibility.py:embedding_feasibility_filter"]}
{"id": "C130", "title": "A fixed share of the possible embeddings is found", "statement": "If find_multiple_embeddings (or find_sublattice_embeddings without a tile embedding) returns fewer embeddings than asked for and its time was not up, then with the default embedder it has found at least the nth part of the largest number of embeddings without common target nodes (for sublattices: of embeddings that lie in sublattices), where n is the number of source nodes. With any thorough embedder, that largest number is at most the number of target nodes that the returned embeddings take up.", "quantifier": "all source graphs with nodes, all target graphs, every family of disjoint embeddings, every thorough solver, any limit", "why_tests_cant": "compares with all families of disjoint embeddings; finding the largest one is hard", "anchors": ["minorminer/utils/parallel_embeddings.py:find_multiple_embeddings", "minorminer/utils/parallel_embeddings.py:find_sublattice_embeddings"]}
