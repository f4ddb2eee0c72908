# Formal model of minorminer: design

The model is written in Lean 4.33.0 under `lean/Verif/`. Each definition cites
the file and lines of the code it models. The property theorems, each with a
concrete case beside it that meets its hypotheses, are in
`lean/Verif/Props/*.lean`; helper lemmas are elsewhere. `Spec/*.lean` holds the
small specifications the statements use (minor embeddings, the three lattices,
clique and biclique embeddings, nested rectangles); they do not depend on the
model except for the type of topologies. `MANIFEST.json` says for each property
which theorems carry it. `seeded/LOG.jsonl` records the wrong programs the
theorems were tested against.

## Modelling conventions

* C++ `int`/`size_t`/`distance_t` values are `Nat` or `Int` unless the property
  is about wrap-around (random generator, bit tables, serialised words), where
  `BitVec` is used.
* `unordered_map` keyed by qubits or variables is a partial function
  (`Nat -> Option _`), whose size and iteration range over the index range of
  the problem. Iteration order is unspecified in C++; where it can matter it is
  chosen by an oracle.
* Undefined behaviour (lookup of a missing key, index out of range) is the
  outcome `Fault.ub`; a loop that has used up its fuel is `Fault.diverge`;
  a C++ exception is `Fault.throw`. Theorems say which outcomes are impossible.
* Randomness, the clock, keyboard interrupts and the floating point weight table
  are parameters (an oracle, a tape or draws); theorems quantify over all of
  them.
* External libraries (networkx, the Glasgow subgraph solver, pickle, the file
  system calls, numpy) are parameters or small explicit state machines.
* Where the code violates a property, the theorem is a kernel-checked concrete
  run (or a general statement) that shows it, and a `_partial` theorem proves
  what does hold.

## Plan by property

| id | model | proof |
|---|---|---|
| C01, C02, C04, C05, C06, C07 | `chain.hpp`, `embedding.hpp` (but `construct_chain`, which nothing calls), `pathfinder.hpp` as functions in `Except Fault` (`Core/*`) | state invariant preserved by every operation; final no-overlap test gives validity; concrete counterexamples where the code violates the claim |
| C03 | the same with domain masks | concrete counterexample run; partial theorem |
| C08, C09 | `check_improvement` on histograms | strict order, well-foundedness |
| C10, C11 | `check_stops`, `heuristicEmbedding`, `findEmbedding` control logic | case analysis over all oracle outcomes |
| C12, C13 | pairing heap as a tree with node store counter | multiset and heap-order invariants |
| C14 | Dijkstra loop | loop invariant with frontier |
| C15 | `collectMinima` fold | induction |
| C16 | `var_order` | permutation invariant for each strategy |
| C17 | job queue as transition system; chunk arithmetic (`Par/Jobs`) | invariant over all schedules |
| C18 | both `prepare_root_distances` | equality, counterexample in the branch that differs |
| C19-C23 | `graph.hpp`, `find_embedding.hpp` (`Graph/*`) | induction; counterexample for C23 |
| C24-C26 | `labeldict`, `_input_parser`, `quality_key` (`Py/*`) | induction |
| C27 | `diagnostic.py` | equivalence with an independent definition of minor embedding |
| C28-C30 | `parallel_embeddings.py` | induction; counterexamples |
| C31, C32 | `feasibility.py` | counting; counterexamples |
| C33, C59 | `find_subgraph` with the Glasgow solver as a sound parameter | induction; counterexample for labels of isolated nodes |
| C34 | `find_grid_embedding` | direct |
| C35-C38, C61, C62 | clique/biclique cache indexes in `busclique.pyx` (`Cache/*`) | induction; counterexamples |
| C39, C51 | `biclique_cache.hpp`, `find_biclique.hpp` | table contents by induction over the fill order; counterexample for C39 |
| C40-C42 | file system state machine with crash points and interleavings (`Cache/Disk*`) | invariant over all events; refinement to a list of caches; counterexamples |
| C43, C44 | coordinates, bit tables | mixed radix arithmetic, all 256 bytes by evaluation |
| C45-C48, C60, C63 | `topo_cache.hpp`, `bundle_cache.hpp`, `clique_cache.hpp`, `find_clique.hpp` (`Bus/*`) | masks represent sets of fragments; dynamic program optimal by induction on the width; walk-back gives nested rectangles; their ells embed a clique |
| C49, C50 | `small_cliques.hpp`, `cell_cache.hpp` | loop invariants; divergence of `inflate` proved for every fuel |
| C52 | `fastrng.hpp` on 64-bit words (`Rng/*`) | explicit inverse of the step |
| C53, C64, C65 | `serialize`, `_serialize`, the cache on disk | concatenation is injective for known lengths; masks determine all but odd couplers; composition with C40 and C60 |
| C54 | `handle_exceptions` | case analysis over class hierarchies |
| C55 | `_get_connected_subgraphs` | counterexample and partial |
| C56-C58 | `quickPass` | invariant of the greedy pass; counterexamples |
| C67 | `parallel_embeddings.py` | every graph searched lies inside the target; `is_valid_embedding` by C27 |
| C66 | the constructor of the initial embedding, `linked`, `heuristicEmbedding` | the traversal reaches exactly the connected chains, links exist exactly between chains that meet or touch |
| C68-C70 | `_extern/rpack`: `rpackcore.c`, `_core.pyx`, `__init__.py` (`Pack/*`) | invariant of the grid of cells and jump targets against the list of placed rectangles; the last packing repeats the search it follows |
| C71 | `bbox_size`, `packing_density`, `overlapping` | loop invariants; counting unit squares |
| C72 | `Layout` and its setters (`Lay/Layout`), on exact rational numbers | bounding boxes under affine maps |
| C73 | `_pack_components`; layout function and rotation are parameters | composition with C68 and C69 |
| C74 | `closest`, `_minimize_overlap`; the k-d tree is a parameter that returns nearest points | induction over the nodes, with C55 |
| C75 | `intersection` and the three functions that collect crossings | arithmetic of coordinates; invariant of the grid |
| C76 | `layout.find_embedding`, `_parse_kwargs`, `_parse_layout_parameter` | composition with C01 |
| C77 | class `Placement` | affine maps, as C72 |
| C78 | the looks at the clock in `heuristicEmbedding` and its passes | count of looks, by induction over each loop |
| C79 | `p_norm`; the minimiser, the distances of networkx and the norm are parameters | cost equals the stress of the specification; affine maps, as C72 |
| C80 | the gradients in `_p_norm_objective`, over any ordered field | derivatives in Mathlib's real analysis |
| C81 | `graph_layout`; the drawings of dwave.graphs are a parameter | extremes of lists; affine maps |
| C82 | the loop of `find_sublattice_embeddings` | invariant: a mapping not used is blocked by an embedding already kept |
| C83 | `_compute_hline_scores`, `_compute_vline_scores` | invariant of `laststart`: the longest unbroken line that ends here |
| C84 | `nativeCliqueEmbed` and its callers; random numbers and shuffles are parameters | blocks of a sequence cross each other in one cell |
| C85 | the table of `nativeCliqueEmbed` | invariant: every value is the maximum over the options, later insertions do not change it; induction over the sequence of blocks |
| C86, C87 | `largestNativeClique`, `tightestNativeClique` | invariant over the widths tried |
| C88 | `biclique_size`, `biclique` | induction over the sides of the rectangle; a horizontal and a vertical line meet in one cell |
| C89, C90 | `largestNativeBiClique`, `tightestNativeBiClique`; the order of sets is a parameter | items of the dictionaries are the sizes and lengths of all rectangles; the loops find a lexicographic minimum |
| C91 | `_to_linear`, `_to_chimera`, `_chimera_neighbors` | division with remainder, membership |
| C92, C93, C94 | class `processor`; `random.choice`, `random.sample` and the randomness of each subprocessor are parameters | the deletions are the minimal hitting sets (fold over the product); the loop finds a maximum of the objective; embeddings in an induced subgraph are embeddings in the graph, and sizes are monotone |
| C95 | `random_processor`; the rounding of the product is a parameter that respects the order and the whole numbers up to the number of qubits, the two calls of `random.sample` are parameters | membership; the order of tuples is total; floor of the rounded product |
| C96, C97, C98 | class `miner` with its wrapper; an exception of a function declared without `except +` ends the process | an invariant of the miner (its problem represents the input with the present initial chains, its embeddings are consistent) kept by every call; induction over the history |
| C99 | greedy passes of a miner | chains stay connected, linked and disjoint from pass to pass |
| C100, C102 | the search from initial chains; `improve_embeddings` | the first statistics are those of the caller's embedding, and statistics never get worse; their histogram is that of the chain lengths |
| C101 | `find_embeddings`, with a bound on the number of rounds | induction over the rounds |
| C103 | the search once more on 64-bit distances (`Core/Wide.lean`), a sum that does not fit being undefined behaviour; the weight table over the real numbers (`Core/Table.lean`) | queued distances are bounded by the number of visited qubits times the largest weight; both versions agree step by step |
| C104 | `compute_margin`, stored in 32 bits | arithmetic |
| C105 | the run of the heuristic; `weight_bound` of `reset_mood` over the real numbers | invariant: fills of current, best and initial embedding stay below the bound, through all passes, rounds and trials; then the numbering of the returned chains |
| C106 | the loops of `heuristicEmbedding` again, with 32-bit signed counters whose overflow is undefined behaviour (`Core/Signed.lean`) | equality with the model over natural numbers for counts that are not negative; the invariant of the search through the signed loops; induction on the clock for the end of the last loop |
| C107 | the public `find_embedding`, the scalar part of `_input_parser`, the defaults of `optional_parameters`, the constructor of `miner`; a Python object is what `is None`, `bool`, `int` and `float` give for it (`Py/Options.lean`) | every parameter is read independently of the others; equality with the search of C01 and C106 |
| C108 | the conversion of `timeout` to a stop time in 64-bit nanoseconds, overflow being undefined behaviour | arithmetic; the first look at the clock |
| C109 | `_regularize_embedding`, `maximum_matching` being a parameter (`Cache/Regular.lean`) | invariant of the growing chains; the number of qubits taken bounds the rounds |
| C110 | `mine_clique_embeddings` and merging with a quality function (`Cache/Mine.lean`), the disk as a dictionary | invariants through the loops over seeds, sizes and embeddings; comparison of two runs; a counterexample |
| C111 | the wrappers of `utils/chimera.py`, `pegasus.py`, `zephyr.py` (`Cache/Wrapper.lean`), the cache being as C35 and C38 describe it | refinement to C35 and C38, relabelling by position |
| C112 | `relabel`, `delabel` and the choice of converters (`Cache/Label.lean`); the converters of dwave.graphs are parameters, specified by the names of qubits (`Spec/Names.lean`) | embeddings are invariant under renaming; refinement to C60 and C38; a throwing coupler |
| C113 | `clear_all_caches` on a file system with directories, files and symbolic links (`Cache/Clear.lean`) | invariant of the stack of directories: no member lies inside of an earlier one, and they cover what is left; each round removes a directory or lengthens the stack |
| C114 | `prepare_root_distances` of the parallel pathfinder as threads that make steps on shared arrays in any order (`Par/Threads.lean`): four stages with a barrier after each, every iteration of an inner loop one step | invariant: each array row belongs to at most one thread and what its search still has to do leads to the outcome of the sequential search; disjoint ranges for the loops in chunks; lexicographic measure for termination; tapes that give any order of a chain link it to the sequential model |
| C115 | `fragment_nodes` and `fragment_edges` of the topology cache, the pieces of a qubit and of a chain, `draw_fragment_embedding` up to the call of the drawing (`Bus/Fragment.lean`) | the loops give explicit lists; membership in terms of the masks, which C41, C42 tie to the graph; contraction by induction along a qubit; connectedness by paths in both directions |
| C116 | the module-level `find_clique_embedding` with its arguments, the seed, the cache on disk and the search without it, as one function of the call and the directory (`Cache/Entry.lean`); histories with kills | identifiers are injective up to odd couplers and Pegasus seeds (C53), so a cached answer was computed from the same masks; entries other than the one of single qubits depend only on masks (`Bus/MaskOnly.lean`); single qubits form cliques of at most 4, or 2 in Chimera (`Bus/CliqueNum.lean`); with at most six missing internal couplers nothing is drawn (`Bus/Few.lean`) |
| C117 | the calls of C107 (`Py/Options.lean`), with all nodes renamed (`Spec/Rename.lean`), the items of dicts in another order, or another clock | relation: label dictionaries, graphs and the parser's state with and without the new names stay related, and give the search the same numbers; insertions with different keys commute, and every error of a chain dict is the same; without stops the parameters of the search do not mention the clock |
| C118 | an object `busgraph_cache` made for a query and asked for bicliques, as one function of the query and the directory (`Cache/EntryBi.lean`); histories with kills | as for C116: what is stored depends only on the masks and the draws, identifiers are injective (C53), with at most six missing couplers nothing is drawn |
| C119 | the model of C39/C62/C118 against lines of qubits described by coordinates (`Spec/Piece.lean`) | with at most six missing couplers every way of dropping an end of each is tried, so some mask keeps a given compatible set of pieces (`fits_mask`); in that mask the rectangle scores at least the number of lines; yields for larger rectangles are only replaced by yields of the same sides |
| C120 | the model of C60, C63 and C116 against lines of qubits described by coordinates (`Spec/Piece.lean`, `Spec/Nested.lean`) | as for C119 some mask keeps all lines; each ell scores at least the fewer of its lines, and by C60 and C63 the search is as good as any nested rectangles; for full lattices explicit rectangles |
| C121 | the model of C84 with results of `randint` from a finite set of equally likely cases (`Spec/Draws.lean`) | products of sets of results have the chances of independent draws; which call decides what is local, so random numbers that lead to a given clique are put together step by step; for equal chances a counterexample is computed by hand |
| C122 | the options of `find_subgraph` up to the call of the solver (`Py/SubOptions.lean`); the documentation as `Spec/SubOptions.lean` | cases on the names; counterexamples for `triggered_restarts` and for parameters of the default policy |
| C123 | the model of C01 as it is | invariant of the initialization pass: every node placed so far has a qubit of its own, and enough are left; then the first check reports success and nothing after it loses that; counterexamples for several threads, equal weights and targets in pieces |
| C124 | `run_diagnostic` and `run_long_diagnostic` (chain.hpp:394-412, embedding.hpp:381-552) with reads of missing qubits as undefined behaviour; the messages it prints are left out | every check follows from the invariant of C06; the breadth first search finds exactly what can be reached; the loop over the parents ends by the ranks of the invariant; the final embedding of a whole search meets the hypotheses (`C124_result`) |
| C125 | the same | the accepted states are stated outright (`Spec.Accepts`) and the check is proved equivalent; each part of "is an embedding" from the check that enforces it; counterexample for a chain without root |
| C126 | `clique_iterator` (clique_cache.hpp:240-344) as a state machine with its stack, on top of the tables of C48 | what is still to come from a state is defined as a list (`toCome`); each call removes its head; the list holds the best walks through the tables, which are the best nested rectangles; counterexample for the last corner |
| C127 | as C33 and C59, with a solver that also answers whenever there is an answer | a mapping of the graphs is turned into one of the numbered graphs the solver is given (`solution_of_map`); the isolated nodes then fit because of the counts |
| C128 | as C28, with an embedder that answers whenever there is an answer | the loop ends at the limit or at a graph, the rest of the target, in which nothing fits; an embedding that meets no other lies in the rest; where the limit comes from the numbers of nodes, one more embedding would need more nodes than there are; `C128_filter` uses C31; `C128_default` puts `find_subgraph` (C127) in the place of the embedder |
| C129 | as C82, for sublattices that are searched one by one with an embedder as in C128 | induction over the mappings: what is left of the target after the embeddings so far, C128 for the part of it in the sublattice, and the count of nodes as in C128 where the limit comes from the numbers of nodes; an embedding in a sublattice is taken back to the tile for the checks that are made there; `C129_filter` and `C129_bound` (from C31 and C32) show that a tile is refused only where it or the target has no embedding; `C129_default` puts `find_subgraph` in the place of the embedder |
| C130 | as C128 and C129 | each embedding of a disjoint family meets one that is returned, in a node of its own; the embeddings returned have as many nodes as the source graph, each |

## Which code is modelled

Modelled function by function:
`include/find_embedding/` `chain.hpp`, `embedding.hpp`, `pathfinder.hpp`,
`pairing_queue.hpp`, `graph.hpp`, `find_embedding.hpp`, and of
`embedding_problem.hpp` the variable orders, domain handlers and fixed handlers;
`include/fastrng.hpp`; all of `include/busclique/` but the debug assertions;
`minorminer/_minorminer.pyx` (labels, parsing of graphs,
chain maps and scalar parameters, `find_embedding`, `quality_key`, class `miner` but `quickpass` with suspended chains), `minorminer/src/pyutil.hpp`
(exceptions); `minorminer/minorminer.py`; `minorminer/busclique.pyx` (cache classes, disk cache,
identifiers, uncached search, regularising, mining, labels); `minorminer/subgraph.pyx`;
`minorminer/utils/diagnostic.py`, `feasibility.py`, `parallel_embeddings.py`,
`chimera.py`, `pegasus.py`, `zephyr.py`, `polynomialembedder.py` (all); `minorminer/layout/placement.py`
(`intersection`, `closest`, their helpers and `Placement`); `minorminer/layout/__init__.py`; `layout.py` (`Layout`,
`p_norm`, `graph_layout` and their helpers); `minorminer/_extern/rpack` (all of it).

Not modelled: display callbacks and logging, `setup.py`, JSON/gzip
compression of exported caches.

## Simplifications

Core: `tries`, `inner_rounds`, patience are natural numbers outside C106 (negative ones not
modelled); distances are unbounded naturals (no signed overflow) but in `Core/Wide.lean`, which
repeats `find_chain` with 64-bit distances; the weight table is a parameter but in
`Core/Table.lean`, where real numbers stand for doubles; a pass that
fails does not look at the clock; what an interrupt leaves in a `miner` is not modelled; `futures[i].wait()` never rethrows, so
exceptions in workers are left out; `std::sort` and `std::shuffle` are any
permutation with the order asked for.

Python: conversions `bool`, `int`, `float` of a parameter have no side effects, `float(timeout) * 10^9` is not
rounded, the clock counts nanoseconds (as in libstdc++), and `None` or objects that are not dicts as chain maps are left
out; labels of one type with decidable equality; building the tuple key that
pins suspended chains is a parameter `pin`; target nodes of the parallel
embedders are neither iterable nor equal to tuples of nodes; filter, clock,
embedder, sublattice mappings and shuffles are parameters; lattice formulas of
`feasibility.py` are computed exactly instead of in floats; graph generators and
greedy colouring are parameters; graph `==` is identity; grid dimensions are
natural numbers.

Clique search: `size_t` as `Nat`, with negative differences an error;
`minorminer_assert` does nothing (release build); the offsets array of Pegasus is
a function; `rng() & 1` is any sequence of coins; the comparison with
`log_mask_bound` is written with a power of two; nested loops over widths as one
fold over the list of rounds; `std::map` of neighbours as a function with empty
default; `unordered_map` as insertion-ordered list; the tables `chainlength` and
`biclique_bounds` as one; `size_t` maximum as `none`; all masks are made before
the first is used.

Caches: dictionaries are item lists; a quality function is given by its comparison `>`;
`networkx.bipartite.maximum_matching` is a parameter of which only `Spec.MaximumMatching` is assumed; the seeds drawn by
`mine_clique_embeddings`, the caches computed for them and the results of its heuristic are parameters (`C110_computed`
and `C110_heuristic` link them to C60 and C01); files removed as least recently used while mining are left out; in C118 the items of an `unordered_map` come in an order given by a parameter, the same in every process; in C117 hashing and equality of labels are those of a type with decidable equality, and the seed determines the draws (`fastrng.hpp`, no global state); in C116 the generator is a parameter that maps family, seed and masks to the draws, labels of the graph are its integers (C112 has the others) and the limit of 100 caches is a parameter; in C115 the drawing itself is outside, labels are as in C112, and going back from the first row or column would be undefined (it never happens); in C114 memory is sequentially consistent (which C114_races justifies: there are no races) and starting and joining threads never fails; in C113 nobody else changes the files, and `iterdir` lists a directory at once; in C112 labels of another kind than the graph's raise an exception (the code passes them on unchanged if the graph has
integer labels); in C111 the decorator `nodes_or_number` and the graph
generators are external, qubits have integer labels and the family of a graph given is not checked; on disk the thread lock and the process lock are one lock which the
system releases when its process dies, `exists` and `load` are one operation,
`dump` is complete when its `with` block ends, `rename` has POSIX semantics, so
that open files keep their identity; words are serialised in little-endian order
with 64-bit `size_t`.

Rectangle packer: `long` and `size_t` are unbounded, but values narrowed to `int`
are narrowed; a linked list of cells is the list of its cells in order; `qsort` is
a parameter, of which only the C standard's contract is assumed (`Spec.Pack.Sorts`);
memory allocation does not fail; the density is an exact fraction.

Layouts: coordinates are exact rational numbers; dictionaries keep their order; the
k-d tree of scipy is a parameter of which only `Spec.Layout.Neighbours` is assumed;
the order of Python sets is any permutation; scipy's minimiser, the distances of
networkx, the p-norm of the rows and the drawings of dwave.graphs are parameters.

Polynomial embedder: tables of scores are functions, computed line by line;
`random.randint` and `random.shuffle` are parameters, and so is the order in which a
set is read; the depth of the recursion of `biclique_size` is bounded by a number that
it does not reach (`C88_size_partial` shows this); dictionaries are lists of
items; subclasses of `eden_processor` are not modelled. In the class `processor`
`random.choice` and `random.sample` are parameters, sets of deleted qubits are lists,
and each subprocessor has its own randomness. In C121 chances are shares of a finite set of cases in which the
results of the first calls of `randint` are independent and uniform.

Each simplification is repeated in the comment of the definition concerned.

## Where the code and the properties disagree

Each of these is a theorem (named here) about the model.

* C02/C03/C05: with `restrict_chains`, qubits outside the domain count as visited
  (`C02_success_not_valid`, `C03_not_confined`, `C05_endless_with_restrictions`).
* C04/C05: initial chains that meet fixed chains or belong to fixed variables
  (`C04_not_unshared`, `C05_undefined_initial_for_fixed`,
  `C05_undefined_initial_on_fixed`).
* C11: a bare `{}` for an empty source (`C11_no_flag_for_empty_source`).
* C18: serial and parallel differ when no neighbour is embedded
  (`C18_fails_without_neighbours`).
* C22: unchecked keys of fixed chains used as indices (`C22_fixed_out_of_range`).
* C23: `quickpass` does not renumber the listed variables
  (`C23_other_node_embedded`, `C23_fixed_chain_replaced`).
* C26: embeddings with only empty chains rank first
  (`C26_empty_chains_rank_first`).
* C29/C30: `one_to_iterable` is not passed on; square arrays
  (`C29_chains_overlap`, `C29_list_chains_raise`, `C29_limit_zero`,
  `C30_square_arrays`).
* C31/C32: self-loops; the degree table of Chimera (`C31_self_loops`,
  `C32_endless`, `C32_none_for_a_star`, `C32_none_for_K4`,
  `C32_none_for_small_target`).
* C36/C37: dense export loses the largest clique; merging by one chain's length;
  a fresh object overwrites the disk cache (`C36_dense`, `C37_quality_lost`,
  `C37_disk_lost`).
* C38/C39/C62: lopsided bicliques, lengths never written, graphs without couplers
  (`C38_lopsided`, `C39_lost`, `C62_no_biclique`).
* C40/C41: the list is renamed after the removal and after the locks are released
  (`C40_broken`, `C41_fails`, `C41_corrupt`).
* C48/C50: width 1 writes past its table; requests within a cell never return
  (`C48_width_one`, `C50_never`, `C50_hangs`).
* C49: self-loops (`C49_self_loop`).
* C54: the base class of exceptions is not translated (`C54_base_class_escapes`).
* C55: smaller sets listed under larger sizes (`C55_wrong_sizes`).
* C56/C57/C58: undefined with `local_search`; a listed node keeps too long a chain; overlap
  next to fixed chains (`C56_undefined_with_local_search`, `C57_listed_node_too_long`,
  `C58_overlap_beside_fixed`).
* C59: labels of isolated nodes (`C59_isolated_nodes`).
* C61: not the largest clique within the length (`C61_not_largest`); after an import, lengths below
  the largest that no imported embedding has raise `KeyError` (`C61_key_error`).
* C64/C65: odd couplers and the family are not in the identifier; a cached
  embedding that is not valid for the graph (`C64_odd`, `C64_families`,
  `C65_stale`).
* C68: a height of 2^31 divides by zero after narrowing to `int`; in debug builds an
  assertion fails for a unit square (`C68_counterexample`).
* C69: areas narrowed to `int` tie, and the last packing goes through the rectangles
  in another order than the search: impossible without limits
  (`C69_counterexample`).
* C70: with two limits a packing may be missed (`C70_counterexample`); limits that
  are zero or negative are ignored, where the core function would refuse zero
  (`C70_ignored`).
* C71: the density of an empty packing divides by zero (`C71_errors`).
* C72: a scale for points that are all the same makes them NaN (`C72_nan`); an empty
  graph has no layout (`C72_empty`).
* C73: a component whose points lie on a line has a rectangle without height, which the
  packer refuses with `ValueError` (`C73_flat`); a centre of three coordinates without
  `dim` cannot be set (`C73_center`).
* C74: subsets smaller than the requested size are used (`C74_too_small`); subsets
  with a common barycentre hide each other, so that an overlap is taken although a
  free subset is as near (`C74_hidden`).
* C75: on Zephyr a grid point may have no qubits, so that a node is placed on the empty
  set, contrary to the documentation (`C75_no_qubits`); a lattice whose grid has one
  row raises `KeyError` (`C75_one_row`).
* C76: an edge list for T raises `AttributeError` although documented
  (`C76_edge_list`); a layout given for a Chimera, Pegasus or Zephyr graph T is
  ignored (`C76_family`); with `fixed_chains` the hint also holds initial chains of
  fixed nodes, which is undefined behaviour (`C76_fixed`).
* C77: `scale_ratio` is ignored if the source layout is larger than the target layout
  (`C77_ratio_ignored`), and without it a larger layout is scaled down all the same
  (`C77_scaled_anyway`); points that are all the same become NaN (`C77_nan`).
* C79: rows of the starting layout are in sorted order, distances in the order of the
  graph, so that positions end up at other nodes (`C79_order`); `G_distances` is never
  read (`C79_given_ignored`).
* C80: the gradient is half the gradient of the cost (`C80_wrong`); for p infinity it
  exists in two dimensions only (`C80_inf_dim`).
* C81: if all nodes have the same first or second coordinate, as for one node, the
  result is NaN (`C81_nan`); one dimension raises `IndexError` (`C81_one_dim`).
* C83: a working qubit behind a missing coupler counts for nothing as a line of one
  cell (`C83_broken`).
* C86: for that reason the clique returned need not be the largest if couplers between
  cells are missing (`C86_not_largest`); without a limit chains longer than the smaller
  dimension plus one are not tried, though they may give larger cliques
  (`C86_short_by_default`); a limit above M + N raises `TypeError` (`C86_type_error`).
* C87: the score is the size of the clique before it is cut to n (`C87_score`); longer
  chains are not tried (`C87_missed`).
* C88: for the same reason `biclique_size` may be less than the number of chains
  (`C88_broken`); then `largestNativeBiClique` need not return the largest biclique
  (`C89_not_largest`) and `tightestNativeBiClique` may miss one (`C90_missed`).
* C90: the score is the size of the biclique before it is cut to n and m
  (`C90_score`).
* C93: the largest clique and biclique need not have the shortest chains, because
  subprocessors are compared by size only (`C93_long_chains`, `C93_long_bi`). The tightest biclique has longer chains than necessary
  if `chain_imbalance` is not 0, as the subprocessors are compared by the number of qubits (`C93_long_tightest`).
* C94: random deletions need not be minimal (`C94_redundant`): a qubit chosen later
  may make an earlier one redundant.
* C95: a removed coupler may be the only one of its qubits, which then do not work
  (`C95_no_evil`).
* C97: a second search that is stopped before its initialization has seen anything
  reports failure and returns the embedding of the first (`C97_stale`).
* C98: the constructor of `pathfinder_wrapper` and `set_initial_chains` are declared
  without `except +`, so that chains outside of the largest component end the process
  (`C98_constructor`, `C98_set_initial_chains`, `C98_improve_embeddings`).
* C99: a pass refused because of an unknown label counts as the first, and the next one
  loses fixed chains (`C99_first_call`); `VARORDER_KEEP` before any other order raises no
  exception, and only node 0 is embedded (`C99_keep_first`).
* C101: with `return_overlap`, `force` counts failures as successes
  (`C101_counts_failures`).
* C103: the weights leave room for exactly `2^63`, one too many, if the number of summands is
  a power of two; a variable with two fixed neighbours and two free qubits reaches it
  (`C103_overflow_fixed`). A qubit next to a fixed chain is entered however crowded it is; from 64
  chains on its weight is `max_distance`, and adding to it overflows
  (`C103_overflow_crowded`).
* C104: the number of summands is cut to 32 bits: a problem with 65536 neighbours and 65536
  qubits is refused as too small (`C104_large_refused`), none is ever refused as too large
  (`C104_never_too_large`), and the weights can then leave no room (`C104_room_lost`). With one free
  qubit the weight of a qubit in one chain is `2^63` (`C104_single_qubit`).
* C105: a node next to a fixed chain is entered however full it is, so that max_fill=1 can give a
  node in two chains (`C105_fixed_exceeds`). Limits below 63 are lowered too, to 63 minus the bits of the
  number of summands: with 8 neighbours and 2048 qubits 50 means 49 (`C105_below_63`).
* C106: a call with negative `chainlength_patience` that is not stopped never returns an embedding
  (`C106_negative_patience`), and with negative `tries` too it never returns (`C106_never_returns`). With a
  time limit it returns when the time is up (`C106_negative_patience_timeout`).
* C107: `miner(S, T)` uses a `chainlength_patience` of 2 and `find_embedding(S, T)` one of 10, so that the two are
  not equivalent as documented: `C107_miner_is_not_equivalent` shows different embeddings for one seed.
  `chainlength_patience=None` also means 2 (`C107_public`).
* C107: by default an interrupt is raised as `KeyboardInterrupt`; with `interactive=True` the best embedding is
  returned. The documentation says the opposite (`C107_interrupt_is_inverted`).
* C107: `verbose=4`, a documented level, raises `ValueError`; `miner(S, T, verbose=4)` ends the process, its C++
  constructor not being declared to throw (`C107_verbose_fails`).
* C108: `timeout=float("inf")`, `nan` and timeouts of more than 292 years are undefined behaviour
  (`C108_too_long_is_undefined`).
* C110: an existing cache for a Chimera or Zephyr graph is not augmented but replaced: the object for the graph starts
  blank, and the seeds drawn have other identifiers (`C110_identifiers`, `C110_overwrites`). A second call can lose
  embeddings (`C110_worse`), contrary to "repeated calls to this function can only improve the quality of the cache".
* C110: for Pegasus the identifier does not contain the seed, so that of `num_seeds` seeds only the first is ever used,
  and none if there is a cache on disk (`C110_pegasus_identifier`, `C110_one_search`).
* C110: for Chimera graphs `heuristic_bound=None`, the default, always raises an exception, after the whole polynomial
  part has run: the attribute is called `columns`, not `cols`, and `/` gives a float (`C110_chimera_fails`).
* C110: with `quality_function=None` the polynomial part does not use `_default_quality_function`, as documented, but
  compares the length of one chain (C37); `C110_default_partial` therefore assumes chains listed by length.
* C111: `find_biclique_embedding` refuses shores of 4 and 2 nodes on two Chimera cells in a row, although the cache holds
  such an embedding, and refuses two empty shores although an empty clique is embedded (`C111_refuses`).
* C111: the documentation for Chimera and Pegasus says a right shore given as a number `b` is labelled `[0, b-1]`; next to a
  left shore given as a number it is labelled `[a, a+b-1]` (`C111_second_labels`), and next to nodes that contain 0 it is
  refused as overlapping (`C111_mixed_overlap`).
* C112: for Zephyr graphs the converters are made from the number of rows alone, and no such converters can be right for
  two tile sizes (`C112_zephyr`). With converters right for tiles of 4, the default of dwave.graphs, a graph with smaller
  tiles and coordinate labels makes the constructor throw an `int` through code that expects no exception, which ends the
  process (`C112_zephyr_dies`).
* C112: `get_clique_cache` exports integer labels, but `update_clique_cache` converts from the labels of the graph, so that a
  cache exported from a graph with coordinate labels cannot be imported (`C112_import_fails`).
* C113: a symbolic link inside of a cache that leads to a directory is followed, the files there are deleted, and
  then the call fails with the cache still in place (`C113_follows_links`); `C113_clear_partial` therefore excludes such
  links.
* C115: odd couplers are not drawn, so that a chain or a clique that uses one is drawn in pieces (`C115_odd`);
  `C115_partial` compares with the graph without them.
* C116: the entry for chains of one qubit depends on the order in which the graph lists its couplers, and on odd couplers, but
  the identifier of the cache does not, so the same call is answered differently after a call for the same graph listed
  in another order (`C116_listing`). In Pegasus the seed is not part of the identifier, so that the second of two calls with
  different seeds gets the answer of the first (`C116_pegasus`). `C116_repeat_partial` excludes both. Without the
  cache and a seed the documentation says that the seed comes from the state of Python's generator, but it comes from the
  operating system (`C116_unseeded`).
* C118: in Pegasus the seed is not part of the identifier, so that after a query with one seed a query to an object with another
  is answered with what was found for the first (`C118_pegasus`). With eight missing couplers the largest balanced biclique can
  have sides of three chains with one seed and of one chain with another (`C118_seeds`). In a graph without couplers every query
  raises `ValueError`, from `max` of nothing (`C118_lonely`).
* C121: the number of cliques that is stored with each rectangle is always one (line 499 stores `nr` where the documentation asks for
  the sum `count`), and a rectangle of one column gets each option twice, so that the choice is not uniform, although the documentation
  says so: among the three native cliques in a column of three cells the outer ones have chance 3/8 each and the middle one 1/4
  (`C121_not_uniform`).
* C122: `triggered_restarts` is computed (lines 346-347) but never stored in the parameters of the solver, so the option has no effect
  (`C122_triggered`, `C122_triggered_false`). A parameter of the default policy, such as `luby_constant`, raises ValueError ("unused
  parameters") unless `restarts_policy` names the policy (`C122_default_policy_false`).
* C123: only the largest component of the target is used, so two nodes without edges are never embedded in two target nodes without edges
  (`C123_pieces_never`, for all settings and draws). With several threads, a search around no chain ignores the fills (lines 853-855 of
  pathfinder.hpp, where the serial search takes the weights, line 741), so nodes without neighbours can all stay on one qubit
  (`C123_threads_false`). The same happens with `max_beta` 1 (`C123_flat_false`). Otherwise the claim is proved, for targets of fewer than
  2^32 nodes and if the search is not stopped before it starts.
* C124: `run_diagnostic` only looks at qubits that are referred to, so a wrong count on a qubit to which nothing refers is not reported
  (`C124_missed`). The claim is stated for referenced qubits.
* C125: chains are only checked for connection if they have a root (line 493 of embedding.hpp), so a chain in two pieces and without a root
  is accepted (`C125_unrooted`). That paths lead to the root (lines 513-526) is only printed, never reported. Proved for rooted chains.
* C126: for each best last rectangle the constructor keeps all corners that give the best score, but `grow_stack` (lines 311-314 of clique_cache.hpp) only
  uses the first of them. On a perfect Chimera graph half of the largest cliques are never returned (`C126_missed`). Proved: everything returned is
  right, the calls end, and only sequences with the last row below, in competition with one above, are left out. No Python function uses the iterator.
* C127: a search stopped by its time limit or by Ctrl-C returns the empty mapping as well (`C127_stopped`); the interrupt is not raised again in Python,
  so that the caller cannot tell this from the proof that there is no subgraph.

## Trusted base

* Lean's kernel. `vcheck` replays the compiled proofs.
* Axioms: every theorem depends on a subset of `propext`, `Classical.choice`,
  `Quot.sound`, as `#print axioms` shows; no axioms are added, and neither
  `sorry` nor compiled evaluation (`native_decide`, `bv_decide`) is used.
  Concrete runs are evaluated by the kernel (`decide +kernel`).
* The faithfulness of the hand translation from C++/Cython/Python to Lean, which
  can be checked against the cited lines, with the simplifications above.
* The specifications in `Spec/*.lean` and the definitions in the statements.
