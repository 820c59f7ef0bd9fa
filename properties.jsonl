{"id": "C01", "title": "Pin counts are exact after any move history", "statement": "After building a partitioned hypergraph from an assignment (mt_kahypar_create_partitioned_hypergraph) and then performing any sequence of node moves, mt_kahypar_num_pins_in_block(e, b) equals the number of pins v of e with mt_kahypar_block_id(v) = b.", "quantifier": "every hypergraph, every k, every initial assignment, every sequence of moves (accepted or rejected)", "why_tests_cant": "The counters are maintained incrementally; a test sees a handful of histories, the claim is an invariant of all of them.", "anchors": ["mt-kahypar/datastructures/partitioned_hypergraph.h: initializePartition, setNodePart, changeNodePart, updatePinCountOfHyperedge, pinCountInPart", "lib/mtkahypar.cpp: mt_kahypar_num_pins_in_block"]}
{"id": "C02", "title": "Connectivity is the number of distinct blocks", "statement": "In every such state mt_kahypar_connectivity(e) equals the number of distinct blocks among the pins of e, and mt_kahypar_num_incident_cut_hyperedges(v) equals the number of hyperedges containing v whose pins lie in at least two blocks.", "quantifier": "every hypergraph, k, assignment and move history", "why_tests_cant": "The bit set is updated by toggling, so one missed or doubled update corrupts all later answers.", "anchors": ["mt-kahypar/datastructures/partitioned_hypergraph.h: connectivity, numIncidentCutHyperedges, incrementPinCountOfBlock, decrementPinCountOfBlock", "mt-kahypar/datastructures/connectivity_set.h"]}
{"id": "C03", "title": "Block weights are exact after any move history", "statement": "mt_kahypar_block_weight(b) equals the sum of the weights of the nodes whose block id is b; hence the block weights sum up to the total weight of the hypergraph.", "quantifier": "every hypergraph, k, assignment and move history, every splitting of the parallel summation", "why_tests_cant": "Needs all histories and all task splittings.", "anchors": ["mt-kahypar/datastructures/partitioned_hypergraph.h: initializeBlockWeights, changeNodePart, setNodeWeight, partWeight", "lib/mtkahypar.cpp: mt_kahypar_block_weight, mt_kahypar_get_block_weights"]}
{"id": "C04", "title": "A rejected move has no effect", "statement": "If a move is rejected because the target block would exceed the weight limit passed with the move, block ids, block weights, pin counts and connectivity sets are exactly as before.", "quantifier": "every state, node, target block and limit", "why_tests_cant": "The implementation optimistically adds the weight and must undo it exactly.", "anchors": ["mt-kahypar/datastructures/partitioned_hypergraph.h: changeNodePart"]}
{"id": "C05", "title": "Concurrent moves never overload a block", "statement": "When any number of threads concurrently move distinct nodes with weight limit L(b) for target block b, then at every moment of every interleaving the weight of the nodes assigned to b is at most max(L(b), initial weight of b), and once all calls have returned block_weight(b) is exact.", "quantifier": "every number of threads, every interleaving of the atomic steps of the moves", "why_tests_cant": "Interleavings cannot be enumerated by tests; the protocol adds first and checks afterwards.", "anchors": ["mt-kahypar/datastructures/partitioned_hypergraph.h: changeNodePart"]}
{"id": "C06", "title": "Attributed gains add up to the change of the objective", "statement": "Summing the attributed gains reported for all concurrent node moves (km1, cut, soed) gives exactly objective(after) - objective(before), for every interleaving of the moves.", "quantifier": "every hypergraph with duplicate-free pins, every set of concurrent moves, every interleaving of the per-hyperedge critical sections", "why_tests_cant": "Gains computed before a move are wrong under concurrency; that the attributed ones telescope is a statement about all schedules.", "anchors": ["mt-kahypar/partition/refinement/gains/km1/km1_attributed_gains.h", "mt-kahypar/partition/refinement/gains/cut/cut_attributed_gains.h", "mt-kahypar/partition/refinement/gains/soed/soed_attributed_gains.h", "mt-kahypar/datastructures/partitioned_hypergraph.h: updatePinCountOfHyperedge"]}
{"id": "C07", "title": "Compressed pin counts behave like a plain table", "statement": "The bit-packed pin count table returns for (e, b) the last value stored there and writing (e, b) never changes any other entry, as long as stored values do not exceed the maximum hyperedge size given at construction.", "quantifier": "every number of hyperedges, every k >= 1, every maximum size in 1..2^32-2, every sequence of set/increment/decrement operations", "why_tests_cant": "Bit positions depend on k and on the maximum size; tests cover a few combinations.", "anchors": ["mt-kahypar/datastructures/pin_count_in_part.h: PinCountInPart", "mt-kahypar/datastructures/pin_count_snapshot.h: PinCountSnapshot"]}
{"id": "C08", "title": "Large-k and default data structures are indistinguishable", "statement": "The sparse pin count list of the LARGE_K preset (at most 8 inline entries, then an external list) answers pin count, connectivity, containment and connectivity set queries like the plain table for every history of increments and decrements.", "quantifier": "every k, every history, including histories crossing the inline/external boundary in both directions", "why_tests_cant": "Overflow and re-use of removed entries depends on the whole history.", "anchors": ["mt-kahypar/datastructures/sparse_pin_counts.h: SparsePinCounts"]}
{"id": "C09", "title": "Connectivity set iteration is exact", "statement": "Iterating over the connectivity set of a hyperedge yields every block in the set exactly once in ascending order and nothing else; its size equals the reported connectivity.", "quantifier": "every k (any number of 64-bit words) and every set content", "why_tests_cant": "Word-boundary arithmetic of the iterator has to hold for all k and all bit patterns.", "anchors": ["mt-kahypar/datastructures/static_bitset.h: StaticBitset::OneBitIterator", "mt-kahypar/datastructures/connectivity_set.h: ConnectivitySets", "mt-kahypar/datastructures/bitset.h: Bitset"]}
{"id": "C10", "title": "Quality metrics match their definitions", "statement": "mt_kahypar_cut, mt_kahypar_km1 and mt_kahypar_soed equal the sums over hyperedges of w(e)[lambda>1], w(e)(lambda-1) and w(e)lambda[lambda>1] computed from the block ids alone; soed = km1 + cut, cut <= km1 for non-negative weights; parallel and sequential evaluation agree; for graphs every undirected edge counts once.", "quantifier": "every partitioned (hyper)graph, every splitting of the parallel reduction", "why_tests_cant": "Needs all inputs and all reduction trees.", "anchors": ["mt-kahypar/partition/metrics.cpp: quality, compute_objective_parallel, compute_objective_sequentially, contribution"]}
{"id": "C11", "title": "km1 gain cache is exact", "statement": "After initialisation and any sequence of moves (with the moved nodes' penalty terms recomputed as the refiners do), gain(u, to) from the km1 gain cache equals km1(before) - km1(after moving u to block to).", "quantifier": "every hypergraph, k, assignment, history of moves, node u and block to", "why_tests_cant": "Delta updates touch other nodes' entries; correctness is an invariant of all histories.", "anchors": ["mt-kahypar/partition/refinement/gains/km1/km1_gain_cache.h", "mt-kahypar/partition/refinement/gains/km1/km1_gain_cache.cpp"]}
{"id": "C12", "title": "cut gain cache is exact", "statement": "Same as C11 for the cut-net objective.", "quantifier": "every hypergraph, k, assignment, history of moves, node u and block to", "why_tests_cant": "Delta updates touch other nodes' entries; correctness is an invariant of all histories.", "anchors": ["mt-kahypar/partition/refinement/gains/cut/cut_gain_cache.h", "mt-kahypar/partition/refinement/gains/cut/cut_gain_cache.cpp"]}
{"id": "C13", "title": "soed gain cache is exact", "statement": "Same as C11 for the sum-of-external-degrees objective.", "quantifier": "every hypergraph, k, assignment, history of moves, node u and block to", "why_tests_cant": "Delta updates touch other nodes' entries; correctness is an invariant of all histories.", "anchors": ["mt-kahypar/partition/refinement/gains/soed/soed_gain_cache.h", "mt-kahypar/partition/refinement/gains/soed/soed_gain_cache.cpp"]}
{"id": "C14", "title": "Gain cache survives concurrent moves", "statement": "After any number of concurrent moves have completed, every km1 benefit term and every penalty term of a node that was not moved equals its recomputed value, for every interleaving (including delta updates delayed past other moves).", "quantifier": "every set of concurrent moves of distinct nodes, every interleaving", "why_tests_cant": "Delta updates run outside the hyperedge lock, so they interleave arbitrarily.", "anchors": ["mt-kahypar/datastructures/partitioned_hypergraph.h: changeNodePart, updatePinCountOfHyperedge", "mt-kahypar/partition/refinement/gains/km1/km1_gain_cache.cpp: deltaGainUpdate, recomputeInvalidTerms"]}
{"id": "C15", "title": "Coarsening preserves the objective", "statement": "For every clustering and every partition of the contracted hypergraph, assigning each node the block of its coarse node gives a partition of the original with the same cut, km1, soed and the same block weights.", "quantifier": "every hypergraph, every clustering, every partition of the coarse hypergraph", "why_tests_cant": "Involves pin deduplication, single-pin removal and identical-net merging for all inputs.", "anchors": ["mt-kahypar/datastructures/static_hypergraph.cpp: StaticHypergraph::contract"]}
{"id": "C16", "title": "Contraction yields a well-formed hypergraph", "statement": "The contracted hypergraph has consecutive node ids, the same total weight, no duplicate pins, no hyperedge with fewer than two pins, no two hyperedges with the same pin set, and incident-net lists that are exactly inverse to the pin lists.", "quantifier": "every hypergraph and clustering, hash collisions included", "why_tests_cant": "Footprint collisions and all clusterings cannot be sampled exhaustively.", "anchors": ["mt-kahypar/datastructures/static_hypergraph.cpp: StaticHypergraph::contract"]}
{"id": "C17", "title": "Construction stores exactly the given hypergraph", "statement": "mt_kahypar_create_hypergraph either reports INVALID_INPUT (index array not starting at 0 or descending, hyperedge longer than the node count, empty hyperedge, pin out of range) or yields a hypergraph whose pins of e are the sorted distinct input pins, whose incident hyperedges of v are exactly the hyperedges containing v in ascending order, and whose weights, degrees, pin count and total weight are those of the input.", "quantifier": "every input array, every schedule of the parallel construction", "why_tests_cant": "Quantifies over all inputs and schedules (atomic position counters).", "anchors": ["include/lib_helper_functions.h: create_hypergraph_from_adjacency_array", "mt-kahypar/datastructures/static_hypergraph_factory.cpp: construct", "mt-kahypar/utils/deduplicate.h"]}
{"id": "C18", "title": "Fixed vertices: contraction is conservative and reversible", "statement": "Contracting v onto u succeeds unless both are fixed to different blocks or the fixed-block weight limit would be exceeded; a refused contraction changes nothing; after a successful one the pair is fixed iff one of them was, to that block; uncontracting in reverse order restores the fixed vertex information exactly.", "quantifier": "every hypergraph with at least one fixed node of positive weight, every history of contractions and uncontractions (in any order that undoes a child before its parent)", "why_tests_cant": "Quantifies over all histories of nested contractions.", "anchors": ["mt-kahypar/datastructures/fixed_vertex_support.cpp: contractImpl, uncontract", "mt-kahypar/datastructures/fixed_vertex_support.h"]}
{"id": "C19", "title": "Fixed vertices survive coarsening", "statement": "A node fixed to block b is contracted into a coarse node fixed to block b, so that a partition of the coarse hypergraph respecting its fixed nodes projects to one respecting the fixed nodes of the input.", "quantifier": "every hypergraph, every clustering not merging nodes fixed to different blocks", "why_tests_cant": "All inputs; in particular zero-weight fixed vertices.", "anchors": ["mt-kahypar/datastructures/static_hypergraph.cpp: contract", "mt-kahypar/datastructures/fixed_vertex_support.h: hasFixedVertices, fixToBlock"]}
{"id": "C20", "title": "Balance bounds are feasible and match the reported imbalance", "statement": "With default block weights, max block weight >= ceil(total/k), so k times the bound is at least the total weight; if every block weight is within its bound then mt_kahypar_imbalance <= epsilon up to a relative rounding error of 2^-50, and if mt_kahypar_imbalance <= epsilon then no block exceeds its bound by more than one unit (exact equivalence fails in both directions because of rounding). Individual block weights are kept, and the target weights derived from them are feasible. With individual block weights whose sum is below the total weight an INVALID_INPUT error is reported.", "quantifier": "every total weight, k >= 1, epsilon >= 0, every rounding of the floating point operations within IEEE bounds", "why_tests_cant": "Rounding cases cannot be enumerated.", "anchors": ["mt-kahypar/partition/context.cpp: Context::setupPartWeights", "mt-kahypar/partition/metrics.cpp: imbalance, isBalanced"]}
{"id": "C21", "title": "Partition files round-trip", "statement": "Writing a partition with mt_kahypar_write_partition_to_file and reading it back for a hypergraph with the same number of nodes yields the same block ids; reading a text of integers with a wrong number of entries reports INVALID_INPUT.", "quantifier": "every partition", "why_tests_cant": "All files / partitions.", "anchors": ["mt-kahypar/io/hypergraph_io.cpp: readPartitionFile, writePartitionFile"]}
{"id": "C22", "title": "hMetis input is parsed faithfully", "statement": "A file in hMetis format that lists m hyperedges over n nodes (with or without hyperedge/node weights, with comments) is read as exactly that hypergraph (1-based ids shifted, single-pin hyperedges dropped and counted if requested, duplicated pins removed), independent of the number of parallel ranges and of the schedule; whatever an accepted file contains, the returned pins are valid node ids.", "quantifier": "every hypergraph and every weight type, every comment placement, spacing and line ending, every number of ranges and order of the parallel copies; files whose length is not a multiple of the page size", "why_tests_cant": "All inputs.", "anchors": ["mt-kahypar/io/hypergraph_io.cpp"]}
{"id": "C23", "title": "Block extraction is exact", "statement": "Extracting block b gives a hypergraph whose nodes correspond one-to-one to the nodes of b with equal weights and whose nets are the restrictions of the input nets with at least two pins in b (only the uncut ones without cut-net splitting); consequently km1 (cut-net splitting) resp. cut (without) of a refined partition is the parent objective plus the sum of the objectives within the blocks.", "quantifier": "every partitioned hypergraph, block, and refinement of the blocks", "why_tests_cant": "All partitions and all sub-partitions.", "anchors": ["mt-kahypar/datastructures/partitioned_hypergraph.h: extract, extractAllBlocks", "mt-kahypar/partition/recursive_bipartitioning.cpp"]}
{"id": "C24", "title": "FM rollback restores the best prefix", "statement": "After reverting the moves behind the best prefix of a global move sequence, the partition equals the one obtained by applying only that prefix, and its objective is the minimum over all admissible prefixes; the recomputed gains of the sequence sum up to the change of the objective.", "quantifier": "every hypergraph, partition and move sequence", "why_tests_cant": "All move sequences; recomputation is done hyperedge-parallel with first-in/last-out tables.", "anchors": ["mt-kahypar/partition/refinement/fm/global_rollback.cpp", "mt-kahypar/partition/refinement/gains/km1/km1_rollback.h"]}
{"id": "C25", "title": "Steiner tree distances are optimal", "statement": "For a connected target graph and a block set of size at most the precomputed bound, the distance used by mt_kahypar_steiner_tree is the minimum weight of a connected subgraph of the target graph containing the blocks; for two blocks it is the shortest path length.", "quantifier": "every target graph and block set", "why_tests_cant": "Optimality over all trees.", "anchors": ["mt-kahypar/partition/mapping/steiner_tree.cpp", "mt-kahypar/partition/mapping/target_graph.h", "mt-kahypar/partition/mapping/all_pair_shortest_path.cpp"]}
{"id": "C26", "title": "Thread-local search state is an exact overlay", "statement": "After a sequence of moves on a delta partition, block ids, block weights, pin counts and connectivity queried through it equal those of the shared partition with the moves applied, while the shared partition is unchanged; clear() resets it to the shared partition.", "quantifier": "every partition and every sequence of local moves", "why_tests_cant": "All histories.", "anchors": ["mt-kahypar/datastructures/delta_partitioned_hypergraph.h", "mt-kahypar/datastructures/delta_connectivity_set.h", "mt-kahypar/datastructures/sparse_map.h"]}
{"id": "C27", "title": "n-level uncontraction restores the hypergraph", "statement": "In the HIGHEST_QUALITY preset, whatever the interleaving of the threads that contract and uncontract: between any two uncontraction batches the hypergraph is the input contracted along the contractions not undone yet (nodes, weights, pins, incident nets, degrees), the objective value of a partition on it equals the value of the projected partition on the input, no thread gets stuck or fails to find a pin, the uncoarsening ends, and at its end nodes, weights, nets, net weights, pins, incident nets and degrees are those of the input.", "quantifier": "every hypergraph, every history of concurrent contractions and net removals, every valid batch schedule, every interleaving of the threads inside a batch, every partition and net-wise objective function", "why_tests_cant": "All contraction histories and all schedules of the threads; the uncontraction order of simultaneous contractions depends on timing.", "anchors": ["mt-kahypar/datastructures/dynamic_hypergraph.cpp", "mt-kahypar/datastructures/incident_net_array.cpp", "mt-kahypar/datastructures/contraction_tree.cpp", "mt-kahypar/partition/coarsening/nlevel_uncoarsener.cpp"]}
{"id": "C28", "title": "Batch uncontraction schedules every contraction exactly once in a valid order", "statement": "The batches computed for n-level uncoarsening contain each registered contraction exactly once, over all versions together; batches are non-empty; undone from last to first, a node is split off only after the node it is contained in is present; contractions onto the same node that ran simultaneously are undone in the same batch and the others in reverse order; a batch exceeds the requested size only by its last group of simultaneous sibling contractions. The computation always terminates and stays within its arrays, for any number of threads.", "quantifier": "every contraction forest, batch size, number of threads and interleaving of the threads", "why_tests_cant": "All forests and all schedules of the concurrent batch assignment.", "anchors": ["mt-kahypar/datastructures/contraction_tree.cpp: createBatchUncontractionHierarchyForVersion", "mt-kahypar/datastructures/dynamic_hypergraph.cpp: createBatchUncontractionHierarchy"]}
{"id": "C29", "title": "Priority queues always deliver the best element", "statement": "The addressable heaps used in refinement and initial partitioning return a maximum-key element at the top after any sequence of insert, remove, key adjustment and deleteTop, and contain exactly the inserted and not removed elements.", "quantifier": "every operation sequence", "why_tests_cant": "All operation sequences.", "anchors": ["mt-kahypar/datastructures/priority_queue.h"]}
{"id": "C30", "title": "Parallel prefix sums equal sequential ones", "statement": "The parallel prefix sum returns at index i the sum of the first i values for every way the range is split and reassembled.", "quantifier": "every input vector, every split/join tree of the scan", "why_tests_cant": "Split trees depend on the scheduler.", "anchors": ["mt-kahypar/parallel/parallel_prefix_sum.h"]}
{"id": "C31", "title": "Hash maps and reset-by-counter arrays behave like maps", "statement": "Sparse/flat maps and fast-reset flag arrays return what was last written since the last clear, for every history of writes and clears, including counter wrap-around.", "quantifier": "every operation sequence", "why_tests_cant": "Wrap-around of the generation counter needs 2^16 or 2^32 operations.", "anchors": ["mt-kahypar/datastructures/sparse_map.h", "mt-kahypar/datastructures/thread_safe_fast_reset_flag_array.h"]}
{"id": "C32", "title": "Concurrent clustering terminates and respects the cluster weight limit", "statement": "While any number T of threads concurrently join nodes into clusters (multilevel coarsening, any ratings), at every moment the nodes of one cluster weigh together at most the maximum allowed node weight plus T-1 times the heaviest node (with one thread: at most the limit) unless the labelling node alone is heavier; cluster ids always name nodes; and every execution in which running threads are scheduled again and again comes to an end: cyclic matching dependencies never deadlock or livelock.", "quantifier": "every hypergraph size, node weights, limit, every choice of matching targets, every number of threads and every interleaving of the individual loads, stores, compare-exchanges and fetch-adds, finite and infinite", "why_tests_cant": "Cyclic waiting and weight races depend on interleavings and on cycles of arbitrary length.", "anchors": ["mt-kahypar/partition/coarsening/multilevel_coarsener.h: performClustering, matchVertices, joinCluster"]}
{"id": "C33", "title": "Recursive bipartitioning produces each block exactly once", "statement": "Recursive bipartitioning into k blocks always ends with a complete partition: every node gets a block in 0..k-1, each block id is produced by exactly one leaf of the recursion, block weights and pin counts belong to the result, the objective value (cut, km1 or soed) of the result is the sum of the cuts of the bipartitions (with cut-net splitting, removal and weight doubling as the objective demands), and fixed vertices with positive total weight end in their block.", "quantifier": "every hypergraph, k >= 2, objective, fixed vertex assignment, results of the bipartitioning calls, and interleaving of the two concurrent recursive calls", "why_tests_cant": "All k (odd splits included), all recursion trees and all schedules of the concurrent recursive calls.", "anchors": ["mt-kahypar/partition/recursive_bipartitioning.cpp"]}
{"id": "C34", "title": "API parameter setting is all-or-nothing", "statement": "mt_kahypar_set_context_parameter either returns SUCCESS and changes exactly the named parameter or returns INVALID_PARAMETER and leaves the context unchanged; presets survive the C round trip; incompatible data structures are always refused.", "quantifier": "every parameter type, value string, preset and hypergraph type", "why_tests_cant": "All strings.", "anchors": ["lib/mtkahypar.cpp: mt_kahypar_set_context_parameter, to_preset_type, from_preset_type", "include/lib_helper_functions.h: is_compatible"]}
{"id": "C35", "title": "Seeded pseudo-random node orders visit every node exactly once and are reproducible", "statement": "The random grouping of the nodes used by the deterministic coarsener, label propagation and community detection is a permutation of the nodes with consistent bucket bounds; it is a function of the seed, the number of nodes and the configured number of work packages, and does not depend on the number of threads, the schedule or the previous content of the reused buffers. Counting sort is stable and exact. Grouping an arbitrary element list yields a permutation of it. The Feistel permutation is a bijection inverted by decrypt.", "quantifier": "every seed, pseudo-random generator, size, number of tasks, schedule of all parallel loops and of the parallel prefix sum, and previous buffer content", "why_tests_cant": "All sizes, seeds and schedules; unit tests run a handful of sizes with one schedule.", "anchors": ["mt-kahypar/utils/reproducible_random.h (PrecomputeBucketOpt, ParallelShuffle, ParallelPermutation, FeistelPermutation)", "mt-kahypar/parallel/parallel_counting_sort.h (counting_sort)", "mt-kahypar/parallel/chunking.h"]}
{"id": "C36", "title": "Concurrent moves on partitioned graphs: exact weights and exactly attributed cut change", "statement": "For graph partitions (graph data type), any number of concurrent changeNodePart / changeNodePartNoSync calls with weight limits, with resetEdgeSynchronization between unsynchronized and synchronized phases: once no call is active, block_weight(b) equals the summed weight of the nodes assigned to b, no block exceeds the limit passed by its movers (unless it did initially), and the gains attributed to the synchronized moves sum up to exactly the change of the edge cut.", "quantifier": "every graph, k, initial partition, weight limits, and every interleaving of the atomic steps and edge-lock critical sections of any number of concurrent calls", "why_tests_cant": "The result depends on which of two adjacent concurrently moved nodes locks the shared edge first and on stale block loads taken before the lock; tests see few interleavings.", "anchors": ["mt-kahypar/datastructures/partitioned_graph.h: changeNodePartImpl, synchronizeMoveOnEdge, resetEdgeSynchronization", "mt-kahypar/partition/refinement/gains/cut_for_graphs/cut_attributed_gains_for_graphs.h"]}
{"id": "C37", "title": "Graph cut gain cache is exact after concurrent moves", "statement": "After initializing the gain cache of the cut metric for graphs and any concurrent schedule of synchronized moves with delta gain updates, gain(u, from, to) equals the decrease of the edge cut obtained by moving only u from its block to block to.", "quantifier": "every graph, k, initial partition, initialization order, every interleaving of concurrent moves and of their atomic cache updates, every node and target block", "why_tests_cant": "Lost or doubled updates only appear for particular interleavings of moves of adjacent nodes.", "anchors": ["mt-kahypar/partition/refinement/gains/cut_for_graphs/cut_gain_cache_for_graphs.cpp: initializeGainCache, deltaGainUpdate", "mt-kahypar/partition/refinement/gains/cut_for_graphs/cut_gain_cache_for_graphs.h: gain"]}
{"id": "C38", "title": "A clustering pass yields a flat clustering with exact weights and counts", "statement": "After a clustering pass every cluster id is the id of its own cluster (cluster_ids[cluster_ids[u]] = cluster_ids[u]), the maintained weight of each cluster is the summed weight of its nodes, and the number of contracted nodes reported is the number of nodes that disappear when the clusters are contracted.", "quantifier": "every hypergraph size, node weights, limit, every choice of matching targets, every number of threads and every interleaving", "why_tests_cant": "The check exists in the code only as a heavy debug assertion on the schedules that happen to occur.", "anchors": ["mt-kahypar/partition/coarsening/multilevel_coarsener.h: matchVertices, joinCluster, coarseningPassImpl (HEAVY_COARSENING_ASSERT)"]}
{"id": "C39", "title": "Distances of large block sets are 2-approximations, independent of history and schedule", "statement": "For a connected target graph with at most 64 blocks, the distance of a block set larger than the precomputed bound is the weight of a minimum spanning tree of the metric completion, hence at least the minimum Steiner tree weight and at most twice that weight; with any number of threads sharing the cache, every request returns this value, so the answer depends only on the requested set.", "quantifier": "every target graph, block set, history of requests, number of threads and interleaving of cache look-ups and insertions", "why_tests_cant": "Optimality over all spanning trees; a poisoned cache entry only shows up for particular request histories.", "anchors": ["mt-kahypar/partition/mapping/target_graph.cpp: distance, computeWeightOfMSTOnMetricCompletion, inputGraphIsConnected", "mt-kahypar/partition/mapping/target_graph.h: computeHash, distanceWithBlock, distanceWithoutBlock, distanceAfterExchangingBlocks"]}
{"id": "C40", "title": "Metis input is parsed faithfully", "statement": "A file in Metis format that lists the neighbours of n vertices (with or without edge and vertex weights, with comments, with empty lines for isolated vertices) is read as exactly that graph: one edge per listed larger neighbour with its weight, vertex weights in order, independent of the number of parallel ranges and of the schedule; a file whose number of edges differs from the header is rejected; whatever an accepted file contains, the returned edges connect valid node ids.", "quantifier": "every graph, every comment placement, spacing and line ending, every number of ranges and order of the parallel copies; files whose length is not a multiple of the page size", "why_tests_cant": "All inputs and all splittings into ranges; an isolated last vertex without line ending takes a special path.", "anchors": ["mt-kahypar/io/hypergraph_io.cpp: readMetisHeader, readVertices, readGraphFile", "mt-kahypar/io/io_utils.h: split_lines, copy_to_global_list"]}
{"id": "C41", "title": "Concurrent n-level contraction yields the contracted hypergraph", "statement": "When any number of threads register and perform single contractions concurrently (with a maximum node weight), interleaved with removals of single-pin and parallel nets between passes, then whenever no call is active and the registered contractions form a forest, the hypergraph is exactly the original one contracted along that forest: enabled nodes, summed node weights, pins of every enabled net (each cluster once), incident nets and degrees. Every objective that is a sum over nets has the same value as on the original hypergraph for all partitions constant on the clusters, no node that absorbed another one exceeds the weight limit, and no call gets stuck or searches in vain.", "quantifier": "every hypergraph, every number of threads, every set of registered contractions and order of attempts, every interleaving of the threads and of the locked critical sections, every sequence of net removals", "why_tests_cant": "The incident nets are kept in linked intrusive lists with in-place removals, pins are swapped to the inactive end of their net under a lock while other contractions of the same net run; the interesting interleavings (two partners that share a net contracted at the same time) are rare.", "anchors": ["mt-kahypar/datastructures/dynamic_hypergraph.cpp: registerContraction, contract, contractHyperedge, removeSinglePinAndParallelHyperedges", "mt-kahypar/datastructures/incident_net_array.cpp: contract, removeIncidentNets", "mt-kahypar/datastructures/contraction_tree.h"]}
{"id": "C42", "title": "Partition and gain cache stay exact during n-level uncoarsening", "statement": "Start with any assignment of the coarsest hypergraph to k blocks. While batches of contractions are undone by any number of threads, removed nets are restored, and nodes are moved concurrently in between (with the gain cache initialised at some time): between any two operations the pin counts, connectivity, connectivity sets and block weights are those of the current hypergraph, every gain returned by the cache is the exact decrease of the objective, uncontracted nodes are in the block of their representative, the objective values and block weights equal those of the represented partition of the input hypergraph; no operation fails, the process can always be completed, and at its end the partition is one of the input hypergraph itself.", "quantifier": "every input hypergraph, contraction forest, batch schedule, k, initial assignment, sequence of refinement moves, every interleaving of the threads' critical sections and of the delayed additions to the gain cache, both connectivity data structures, objectives cut, km1 and soed", "why_tests_cant": "The update rules of the gain cache distinguish the cases re-added pin / replaced pin and special pin counts; two contractions of one batch can touch the same net in either order, and an error of one unit of weight in the cache has no visible effect but worse moves.", "anchors": ["mt-kahypar/datastructures/partitioned_hypergraph.h: uncontract, restoreSinglePinAndParallelNets, changeNodePart", "mt-kahypar/partition/refinement/gains/km1/km1_gain_cache.cpp: uncontractUpdateAfterRestore, uncontractUpdateAfterReplacement, restoreSinglePinHyperedge", "mt-kahypar/partition/refinement/gains/cut/cut_gain_cache.cpp", "mt-kahypar/partition/refinement/gains/soed/soed_gain_cache.cpp", "mt-kahypar/partition/coarsening/nlevel_uncoarsener.cpp"]}
{"id": "C43", "title": "Deterministic coarsening is deterministic", "statement": "A clustering pass of the deterministic coarsener without fixed vertices yields the same clustering and the same node count for every schedule of its parallel loops. For every schedule the pass can complete and never reads outside its arrays, no cluster is heavier than the maximum allowed node weight (except a single too heavy node), clusters stay within communities, disabled nodes stay alone, vertices fixed to different blocks are never clustered together, and with positive node weights the reported node count is exactly the number of clusters.", "quantifier": "every (hyper)graph, node weights, scores (any arithmetic), tie breaking, communities, fixed vertices, weight limits, grouping into sub-rounds, and every interleaving of the threads' accesses in the five loops of a sub-round", "why_tests_cant": "The loops read and write the shared weight and proposal arrays without synchronisation; determinism rests on no thread ever acting on a value that depends on the order. Tests run a few seeds on a few machines and cannot enumerate the interleavings of the swap and approval loops.", "anchors": ["mt-kahypar/partition/coarsening/deterministic_multilevel_coarsener.cpp: coarseningPassImpl, clusterNodesInRange, calculatePreferredTargetCluster, approveNodes, handleNodeSwaps", "mt-kahypar/partition/coarsening/policies/rating_fixed_vertex_acceptance_policy.h: acceptContraction", "mt-kahypar/datastructures/fixed_vertex_support.cpp: contractWithoutChains"]}
{"id": "C44", "title": "Deterministic label propagation refinement is deterministic and never worsens the partition", "statement": "Two calls of the deterministic label propagation refiner that start with the same partition, member data and random state end with the same partition, report the same improvement and leave the same member data behind, whatever the schedule of their threads. The reported improvement is exactly the decrease of the objective and is never negative; a balanced partition stays balanced and the block weights stay exact; fixed vertices stay in their blocks; every call can be completed, and the loop that reverts moves never leaves its array and ends with no block overloaded. The parallel recursive search for the moves that two blocks can exchange returns the same pair as the sequential search: the componentwise longest pair of prefixes within the weight bounds.", "quantifier": "every hypergraph, k, partition with exact data structures, weight limits, objective cut, km1 or soed, fixed vertices, rule for choosing the best move, configuration (active nodes, sub-rounds, iterations), permutation, and every interleaving of the concurrent moves and of the activation of neighbours", "why_tests_cant": "Moves of a sub-round are executed concurrently and only then evaluated; whether determinism and balance survive depends on sums over all block pairs, on ties, on the wrap-around loop that reverts moves, and on marks that are set by racing threads. Tests compare a few runs.", "anchors": ["mt-kahypar/partition/refinement/deterministic/deterministic_label_propagation.cpp: refineImpl, applyMovesByMaximalPrefixesInBlockPairs, findBestPrefixesRecursive, findBestPrefixesSequentially, applyMovesSortedByGainAndRevertUnbalanced, applyMovesIf", "mt-kahypar/partition/refinement/deterministic/deterministic_label_propagation.h: calculateAndSaveBestMove, performMoveWithAttributedGain"]}
{"id": "C45", "title": "The move proposed for a node is exact and optimal", "statement": "The gain that label propagation computes for a node and a target block is the exact change of the objective (cut, km1, soed, Steiner tree metric) that moving the node there would cause. The returned move is the best one that is allowed: its block exists and is not overloaded by it (unless imbalance is allowed), no other allowed block gives a better objective value, a node is never moved to a worse one unless the caller rebalances, and with randomisation disabled only for a strict improvement. With randomisation disabled the returned move depends on the block ids only, not on the history of the partition, the thread that asks or what it computed before.", "quantifier": "every hypergraph, partition reached by any sequence of operations, node, target block, weight limits, random numbers, content of the thread-local memory, combination of the flags for rebalancing, imbalance and non-adjacent blocks; any distance function of a target graph", "why_tests_cant": "The scores are accumulated in a reused thread-local sparse map whose stale content is never erased and distinguish pin counts 1 and size - 1; an off-by-one error there only shows as slightly worse partitions.", "anchors": ["mt-kahypar/partition/refinement/gains/gain_computation_base.h: computeMaxGainMove, computeMaxGainMoveForScores", "mt-kahypar/partition/refinement/gains/km1/km1_gain_computation.h: precomputeGains", "mt-kahypar/partition/refinement/gains/cut/cut_gain_computation.h", "mt-kahypar/partition/refinement/gains/soed/soed_gain_computation.h", "mt-kahypar/partition/refinement/gains/steiner_tree/steiner_tree_gain_computation.h"]}
{"id": "C46", "title": "Removed degree-zero nodes, single-pin and large hyperedges are restored exactly", "statement": "Before partitioning, nodes without hyperedges, hyperedges with one pin and hyperedges above the size threshold are taken out of the hypergraph; the caller must not notice. The reduced hypergraph contains exactly the remaining hyperedges; fixed nodes are never removed and the hypergraph does not shrink below the contraction limit. After partitioning the hypergraph has its original nodes, hyperedges, pins, weights and incident hyperedges, every node is in a block, nodes that were not removed are in the block computed for them, and all pin counts, connectivity sets and block weights are exact. The objective is that of the reduced hypergraph plus the contribution of the large hyperedges. Each degree-zero node goes to a block with most free space; a balanced partition stays balanced for unit weights, and in general exceeds a limit only by less than the lightest degree-zero node of the block.", "quantifier": "every hypergraph, threshold, contraction limit, number of blocks, history of the partition of the reduced hypergraph, order of the parallel loops over the pins and of their thread-local counters, order of equal elements in the sorts; both partition types", "why_tests_cant": "Removal permutes incidence lists in place and restoration must find every entry again; large and isolated parts are rare in test inputs, and the final balance depends on the sequence of all placements.", "anchors": ["mt-kahypar/partition/preprocessing/sparsification/degree_zero_hn_remover.h: removeDegreeZeroHypernodes, restoreDegreeZeroHypernodes", "mt-kahypar/partition/preprocessing/sparsification/large_he_remover.h: removeSinglePinAndLargeHyperedges, restoreSinglePinAndLargeHyperedges", "mt-kahypar/datastructures/static_hypergraph.h: removeEdge, removeLargeEdge, restoreEdge, restoreLargeEdge, removeDegreeZeroHypernode", "mt-kahypar/datastructures/partitioned_hypergraph.h: restoreLargeEdge, restoreSinglePinEdge, restoreDegreeZeroHypernode", "mt-kahypar/partition/partitioner.cpp: sanitize"]}
{"id": "C47", "title": "The best initial partition is selected, independently of the schedule", "statement": "The initial partition handed to the uncoarsening is at least as good as every partition computed by any run of any flat initial partitioner: a feasible one is preferred to an infeasible one, among feasible ones the smaller objective and then the smaller imbalance counts, among infeasible ones the smaller imbalance. It is one of the computed partitions or a refinement of one. In deterministic mode the selected partition is the same for every interleaving of the runs, provided that no two infeasible partitions have the same imbalance and different objectives and that the population is not refined.", "quantifier": "every number of runs, results of the runs, distribution of runs to threads, interleaving of the concurrent commits with the shared population and its heap repairs, population size, refinement function", "why_tests_cant": "The double-checked locking on the front of the heap and the repair of the heap interleave with commits of other runs; a lost best partition would only lower the quality.", "anchors": ["mt-kahypar/partition/initial_partitioning/initial_partitioning_data_container.h: is_other_better, commit, apply, performRefinementOnBestPartition"]}
{"id": "C48", "title": "Flow-based refinement never worsens the partition and reports the exact improvement", "statement": "Searches on different pairs of blocks run concurrently and each may return any sequence of moves, computed from an outdated view of the partition. Whenever no sequence is being applied: the objective has decreased by exactly the sum of the reported improvements, which is not negative; no block is heavier than the maximum of its weight before the refinement and its limit; block weights, pin counts and connectivity sets are exact and every node is in a block. Each search either leaves the partition as it was, or exactly its moves are applied and the objective does not get worse; taking moves back never fails. The search that holds the lock is never stuck. If the gain cache was initialised before and the terms of the moved nodes are recomputed, all cached gains are exact.", "quantifier": "every hypergraph, k, partition reached by any history, weight limits (also with blocks that are overloaded before), objective cut, km1 or soed, number of searches, returned move sequences and interleaving; both partition types", "why_tests_cant": "The sequences are applied optimistically and taken back on conflict; the block weights of the scheduler are maintained separately from those of the partition. Whether both stay in agreement depends on the order in which searches finish.", "anchors": ["mt-kahypar/partition/refinement/flows/flow_refinement_scheduler.cpp: applyMoves, partWeightUpdate, applyMoveSequence, revertMoveSequence, initializeImpl, refineImpl"]}
{"id": "C49", "title": "The lists of cut hyperedges between two blocks are complete", "statement": "When all searches of the flow-based refinement have finished and no sequence of moves had to be taken back, every hyperedge with pins in two blocks is in the list of cut hyperedges of this pair, from which later flow problems are constructed.", "quantifier": "every hypergraph, k, partition reached by any history, objective, number of searches, returned move sequences and interleaving of the unlocked updates of the lists with the moves of other searches", "why_tests_cant": "The lists are updated after the lock is released, reading connectivity sets that other searches change at the same time. Losing an entry only costs quality and depends on the schedule.", "anchors": ["mt-kahypar/partition/refinement/flows/quotient_graph.cpp: initialize, addNewCutHyperedge, addHyperedge", "mt-kahypar/partition/refinement/flows/flow_refinement_scheduler.cpp: applyMoves, applyMoveSequence"]}
{"id": "C50", "title": "Graph construction stores exactly the given graph", "statement": "mt_kahypar_create_graph rejects an input exactly if there are too many nodes or edges for the id type, an edge is a self loop or has an end that is not a node, or the total node weight overflows. Otherwise the returned graph has the given nodes, node weights and total weight, and every given edge appears exactly once at each of its two end nodes with the other end, its weight and its number; the neighbours of each node are listed in ascending order. The graph does not depend on the schedule of the parallel construction if there are no parallel edges; the lists of neighbours never depend on it.", "quantifier": "every number of nodes and edges, edge list, weights, number of threads, assignment of edges to threads, interleaving of the writes of the two ends of all edges, unstable sorting algorithm, shape of the parallel sum", "why_tests_cant": "All threads append to the segments of shared nodes through atomic counters, and the sorted order is then applied in place by following cycles of a permutation; a wrong entry shows only for particular degree patterns and schedules.", "anchors": ["lib/mtkahypar.cpp: mt_kahypar_create_graph", "include/lib_helper_functions.h: create_graph", "mt-kahypar/datastructures/static_graph_factory.cpp: construct_from_graph_edges, sort_incident_edges", "mt-kahypar/datastructures/hypergraph_utils.h: computeTotalNodeWeightParallel"]}
{"id": "C51", "title": "Graph contraction yields the quotient graph", "statement": "Contracting a clustering of a graph with positive edge weights gives a graph whose nodes are exactly the clusters, with the summed node weights, and whose edges join exactly the pairs of clusters between which there is an edge, with the summed weight; there are no self loops or parallel edges, both copies of an edge agree and share one id below the number of edges. Every partition of the coarse graph has the same cut and block weights as its projection, also over a whole hierarchy. Communities are inherited. The coarse graph does not depend on the schedule.", "quantifier": "every graph with positive edge weights, clustering, degree threshold, number of threads and buckets, order of all parallel loops, insertion order of the concurrent bucket map, unstable sorting algorithms, content of reused memory", "why_tests_cant": "Edges are copied to shared temporary segments through atomic counters, deduplicated in place, for high degree nodes in two concurrent stages, and numbered by a prefix sum; tests do not reach the high degree path (threshold 100 000) or all interleavings.", "anchors": ["mt-kahypar/datastructures/static_graph.cpp: contract, deduplicateTmpEdges", "mt-kahypar/datastructures/static_graph.h: TmpEdgeInformation"]}
{"id": "C52", "title": "Deterministic flow refinement processes every eligible pair of blocks exactly once per round, in disjoint groups", "statement": "In every round of the deterministic flow-based refinement, each pair of blocks that is eligible at the beginning of the round (one of the two blocks is active, the weight of its cut hyperedges is above the threshold, and, if unpromising pairs are skipped, it is the first round or an improvement was found for it before) is processed exactly once and no other pair is. Pairs that are processed at the same time have no block in common. In the first round these are exactly the pairs for which the hyperedges with pins in both blocks are heavier than the threshold. A block is active in a later round only if the previous round improved a pair with this block (and always then, if no write to the packed flags gets lost). No hyperedge between two blocks is missing in the list passed to the search of this pair, in any round. Applying the moves never gets stuck.", "quantifier": "every hypergraph with nonnegative weights, k, partition reached by any history, objective, threshold, computed move sequences, interleaving of all tasks and of the insertions into the quotient graph; both partition types", "why_tests_cant": "The greedy matchings depend on participation counts, sorted candidate lists and weights that change between the matchings of a round; a skipped or repeated pair shows only for particular quotient graphs.", "anchors": ["mt-kahypar/partition/refinement/flows/deterministic/participation_scheduler.cpp: initialize, resetForNewRoundImpl, getNextMatching, isEligible", "mt-kahypar/partition/refinement/flows/deterministic/deterministic_flow_refinement_scheduler.cpp: refineImpl, applyMoves", "mt-kahypar/partition/refinement/flows/quotient_graph.cpp: initialize, addNewCutHyperedge"]}
{"id": "C53", "title": "Deterministic flow refinement reports exact improvements although pairs are processed concurrently", "statement": "The moves of disjoint pairs of blocks are applied concurrently. The improvement computed for each pair equals the change of the objective that its moves would cause alone, the improvements add up to the real change, and the new partition is the old one with all moves performed. After the refinement the reported improvement is the difference of the objective, and block weights, pin counts and connectivity sets are exact. If the moves of a pair alone never make the objective worse, the refinement does not either and terminates after at most objective + 1 rounds; if they respect the weight limits of their two blocks, all blocks respect their limits.", "quantifier": "every hypergraph, k, partition reached by any history, objective cut, km1 or soed, computed move sequences, interleaving of the atomic operations of all tasks; both partition types", "why_tests_cant": "Concurrent tasks change pin counts of the same hyperedges; that the pin counts passed to the gain function are nevertheless those of a sequential execution holds for all interleavings only because the pairs are disjoint.", "anchors": ["mt-kahypar/partition/refinement/flows/deterministic/deterministic_flow_refinement_scheduler.cpp: refineImpl, applyMoves", "mt-kahypar/partition/refinement/flows/quotient_graph.h: reportImprovement"]}
{"id": "C54", "title": "Deterministic flow refinement gives the same partition for every schedule", "statement": "Two runs of the deterministic flow-based refinement on the same partition give the same partition, the same improvement and the same number of rounds, whatever the number of threads and the interleaving.", "quantifier": "every pair of executions: order in which results are stored, interleaving of the tasks that apply moves and report results, order of the insertions into the quotient graph, internal order of connectivity sets; every k, objective and computation of moves that depends only on the partition and the sorted cut hyperedges", "why_tests_cant": "Determinism is a statement about all pairs of schedules; tests compare a few runs on one machine.", "anchors": ["mt-kahypar/partition/refinement/flows/deterministic/deterministic_flow_refinement_scheduler.cpp: refineImpl, applyMoves, initializeImpl", "mt-kahypar/partition/refinement/flows/deterministic/participation_scheduler.h: reportResults, _active_blocks_next_round", "mt-kahypar/partition/refinement/flows/problem_construction.cpp: construct"]}
{"id": "C55", "title": "The flow network is exact", "statement": "The network built for two blocks and a region around their cut determines the objective: for every way to distribute the nodes of the region over the two blocks, the difference of the objective to the current partition is the capacity of the nets of the network that are cut by the corresponding cut between source and sink, plus the reported non-removable cut, minus the reported total cut.", "quantifier": "every hypergraph, partition, pair of blocks, region grown from any list of cut hyperedges with any size limits, objective cut, km1 or soed, hash function (also with collisions), every distribution of the region, for the parallel construction every order of the hyperedges and every success or failure of the concurrent search for identical nets", "why_tests_cant": "The network leaves out hyperedges, contracts all nodes outside the region to source and sink and merges identical nets found through hashes; a missing net changes the result only for particular cuts.", "anchors": ["mt-kahypar/partition/refinement/flows/sequential_construction.cpp: constructDefault", "mt-kahypar/partition/refinement/flows/parallel_construction.cpp: constructDefault", "mt-kahypar/partition/refinement/flows/flow_hypergraph_builder.cpp: finishHyperedge", "mt-kahypar/partition/refinement/gains/soed/soed_flow_network_construction.h: getParameters"]}
{"id": "C56", "title": "The region of a flow problem is well formed and respects its limits", "statement": "The search around the cut of two blocks always terminates. Its result consists of distinct nodes of the two blocks that are not fixed, sorted by block, and of exactly the hyperedges incident to these nodes, each once; the stored weights and number of pins are right. Each block stays below its weight limit except for the last node added, and the number of pins exceeds its limit by less than the degree of one node.", "quantifier": "every hypergraph, set of fixed nodes, partition, pair of blocks, list of hyperedges to start from, limits of weight, distance and number of pins", "why_tests_cant": "Loops over a growing double queue with three kinds of visited flags and locks that are set in the middle of a level; off-by-one errors depend on the order of the nodes.", "anchors": ["mt-kahypar/partition/refinement/flows/problem_construction.cpp: construct, isMaximumProblemSizeReached", "mt-kahypar/partition/refinement/flows/problem_construction.h: BFSData"]}
{"id": "C57", "title": "All constructions of the flow network agree and the deterministic one does not depend on the schedule", "statement": "For hypergraphs, the sequential construction that scans all pins, the sequential construction that collects the pins of the region nodes, and the two deterministic parallel constructions give the same list of nets with the same capacities and the same cut values, for every number of threads and buckets and every schedule.", "quantifier": "every hypergraph with nonnegative weights, partition, pair of blocks, region, objective, hash function, number of buckets, insertion order into the concurrent bucket map, order of the buckets, order of collected pins", "why_tests_cant": "The parallel construction deduplicates per bucket after concurrent insertions; equality has to hold for all orders and all hash collisions.", "anchors": ["mt-kahypar/partition/refinement/flows/parallel_construction.cpp: constructDefaultDeterministic, constructOptimizedForLargeHEsDeterministic, deduplicateParallelHyperedges", "mt-kahypar/partition/refinement/flows/sequential_construction.cpp: constructDefault, constructOptimizedForLargeHEs"]}
{"id": "C58", "title": "Flow refinement never makes the partition worse", "statement": "If the maximum flow algorithm returns a cut between source and sink, its capacity and the weights of its two sides, and respects the given weight limits, then the moves computed for two blocks only move free nodes of the region between the two blocks, the expected improvement is exactly the decrease of the objective and never negative, no block becomes heavier than the maximum of its old weight and its maximum weight, and moves without improvement make the heavier of the two blocks lighter. In deterministic mode the moves do not depend on the schedule. The whole deterministic flow refinement of a hypergraph then never makes the objective worse, reports the exact improvement and terminates after at most objective + 1 rounds.", "quantifier": "every hypergraph, partition, pair of blocks, region limits, objective, sound flow algorithm, schedule of the network construction and of all parallel parts of the refinement", "why_tests_cant": "It combines the exactness of the network for all cuts with the concurrent application of moves; no test sees all flows and schedules.", "anchors": ["mt-kahypar/partition/refinement/flows/flow_refiner.cpp: refineImpl, runFlowCutter", "mt-kahypar/partition/refinement/flows/sequential_construction.cpp: constructFlowHypergraphExplicit", "mt-kahypar/partition/refinement/flows/deterministic/deterministic_flow_refinement_scheduler.cpp: refineImpl"]}
{"id": "C59", "title": "2-way FM of initial partitioning: exact gains, best choice, never worse", "statement": "A call of the sequential 2-way FM refiner on a bipartition, with the cut and the imbalance of the partition as input: the reported cut and imbalance are those of the resulting partition; fixed nodes keep their block; if it returns false the partition is unchanged, if it returns true the cut is smaller, or equal with a smaller imbalance; no block becomes heavier than the maximum of its old weight and its limit; with positive node weights an improved partition has no empty block. In each iteration the tried node is a free, not yet tried node of a cut hyperedge whose target block is not full, its priority is exactly the reduction of the cut and no other such node has a larger one; the loop can continue as long as such a node exists; every node is tried at most once. The same holds after any number of rounds.", "quantifier": "every hypergraph with arbitrary weights, every bipartition, limits, set of fixed nodes, order of the nodes, tie breaking of the queue and stopping point", "why_tests_cant": "The incremental gain updates with locked hyperedges and the border tracking have to be exact after every sequence of moves; tests follow a few sequences.", "anchors": ["mt-kahypar/partition/refinement/fm/sequential_twoway_fm_refiner.cpp: refine, activate, updateNeighbors, deltaGainUpdate, updatePQState, computeGain, rollback", "mt-kahypar/partition/refinement/fm/sequential_twoway_fm_refiner.h: BorderVertexTracker", "mt-kahypar/partition/initial_partitioning/initial_partitioning_data_container.h: refineCurrentPartition"]}
{"id": "C60", "title": "Kernighan-Lin block swaps: exact gains, terminates, never worse", "statement": "Given a one-to-one mapping of blocks onto the processors of a target graph, the local search terminates; its result is a permutation of the mapping with a Steiner tree objective that is not larger; fixed blocks are not moved; with individual block weights every moved block fits onto its new processor. The gain computed for a swap is exactly the decrease of the objective.", "quantifier": "every communication hypergraph with nonnegative edge weights, every nonnegative distance function, every one-to-one mapping, set of fixed nodes and limits", "why_tests_cant": "Gains are updated lazily, swaps are rolled back and passes repeat up to a number of fruitless rounds; termination and monotonicity concern all sequences of swaps.", "anchors": ["mt-kahypar/partition/mapping/kerninghan_lin.cpp: improve, swap_gain, vertex_swap"]}
{"id": "C61", "title": "Greedy mapping is one-to-one and greedy", "statement": "With one node per processor and a usable seed node (not fixed with a processor on which it fits, or fixed and some hyperedge connects a fixed and a free node) the greedy construction terminates and maps the nodes one-to-one onto the processors, fixed nodes onto their block. Every assigned node gets an unused processor whose increase of the Steiner tree objective is at most that of every unused processor on which the node fits.", "quantifier": "every communication hypergraph, distance function, set of fixed nodes, degrees of the target graph, tie breaking (also random), seed node", "why_tests_cant": "The queue contains outdated entries, is refilled when components are exhausted, and depends on the order of assignments; the property has to hold for all of them.", "anchors": ["mt-kahypar/partition/mapping/greedy_mapping.cpp: compute_greedy_mapping, get_node_with_minimum_weighted_degree"]}
{"id": "C62", "title": "Initial mapping of a partition permutes its blocks and never makes it worse", "statement": "Mapping a partition without empty blocks onto the target graph gives a partition that is the old one with permuted blocks: the Steiner tree objective is not larger, block weights are permuted, fixed nodes keep their block. If the given mapping is feasible, the result is feasible, at least as good as every feasible mapping found for a seed node, and does not depend on the order in which the parallel tasks finish.", "quantifier": "every hypergraph, partition without empty block, k at most the number of nodes, schedule of the contraction, order of the critical sections, local search switched on or off, imbalance function and epsilon", "why_tests_cant": "It composes contraction, the greedy algorithm, the local search and a race for the best solution; tests see single schedules.", "anchors": ["mt-kahypar/partition/mapping/initial_mapping.cpp: map_to_target_graph", "mt-kahypar/partition/mapping/greedy_mapping.cpp: mapToTargetGraph"]}
{"id": "C63", "title": "Deterministic rebalancing is deterministic, exact and moves no more than necessary", "statement": "From the same partition and the same internal flags the deterministic rebalancer ends with the same partition, number of rounds and reported quality for every schedule of its threads, and it always ends (at most 30 rounds), with a balanced partition or after the configured number of rounds. The reported quality changes by exactly the change of the objective, block weights are exact, fixed vertices and balanced partitions stay unchanged. In every round each block that is too heavy loses the shortest sequence of its movable vertices, in priority order, that makes it light enough (all of them if that is impossible), every vertex goes to a block with room for it (weight at the start of the round) that minimises the objective, and blocks that are too heavy receive nothing.", "quantifier": "every hypergraph, partition reached by any history, objective (cut, km1, soed), number of blocks, block weight bounds, fixed vertices, dead zone, heavy vertex factor, priority function, schedule of the parallel loops and of the concurrent moves", "why_tests_cant": "Vertices are collected in schedule dependent order and moved concurrently while all counters change; tests see a few schedules.", "anchors": ["mt-kahypar/partition/refinement/rebalancing/deterministic_rebalancer.cpp: refineImpl, weakRebalancingRound, computeGainAndTargetPart, isValidTarget, mayMoveNode"]}
{"id": "C64", "title": "The deterministic Jet refiner is deterministic, never worsens a partition, and terminates", "statement": "Called with correct metrics, the deterministic Jet refiner returns the given partition or a better one: a balanced partition stays balanced and gets a smaller objective; an unbalanced one becomes balanced or gets a smaller imbalance. The final metrics are exact, fixed vertices are not moved, the returned value tells whether the objective decreased. From the same partition, metrics and rebalancer flags it ends with the same result for every schedule of its threads and every random number. No dynamic round runs forever although iterations without a limit on their number are allowed, and a result always exists.", "quantifier": "every hypergraph, partition reached by any history, objective (cut, km1, soed), number of blocks, weight bounds, fixed vertices, number of dynamic rounds and iterations, floating point computations (negative gain factor, imbalance, improvement threshold), schedule of all parallel loops, concurrent moves and atomic additions", "why_tests_cant": "Moves are proposed, filtered, executed and rolled back by parallel loops; the loop ends only after a number of iterations without enough improvement; tests see a few schedules.", "anchors": ["mt-kahypar/partition/refinement/deterministic/deterministic_jet_refiner.cpp: refineImpl, runJetRounds, rollbackToBestPartition"]}
{"id": "C65", "title": "One Jet iteration executes exactly the proposals that pay off in gain order", "statement": "In every iteration only unlocked, movable border vertices propose a move, to a block that minimises the objective; every vertex that can improve the objective does. The afterburner computes for each proposal exactly the change of the objective when it is executed after all proposals with smaller gain value (ties: smaller id), and exactly the proposals for which this value is not positive are executed; these vertices are locked in the next iteration. The tracked quality changes by exactly the change of the objective. For soed the claim excludes hyperedges of size two, for which the computed value is wrong.", "quantifier": "every hypergraph, partition reached by any history, objective, locks, fixed vertices, negative gain rule, order in which hyperedges are visited, order of the atomic additions, schedule of the moves", "why_tests_cant": "The afterburner visits hyperedges in schedule dependent order, with special cases for two and three pins; tests compare few instances.", "anchors": ["mt-kahypar/partition/refinement/deterministic/deterministic_jet_refiner.cpp: computeActiveNodesFromGraph, hypergraphAfterburner, performMoveWithAttributedGain"]}
{"id": "C66", "title": "Deterministic Jet on graphs: the afterburner and the tracked cut are exact", "statement": "On graphs exactly those proposals are executed that do not increase the cut when they are executed after all proposals with smaller gain value (ties: smaller id). After every iteration, including rebalancing, the tracked quality is the cut, although the moves themselves report no gains: the contributions that the threads sum up over the changed vertices add up to the change of the cut, whichever vertices were moved, how often, and however the vertices are distributed among the threads.", "quantifier": "every graph, partition reached by any history of concurrent moves, proposals, schedule of the moves of the iteration, distribution of the vertices among the threads", "why_tests_cant": "The quality is reconstructed edge by edge with a rule that decides at which end vertex an edge is counted; tests compare few instances.", "anchors": ["mt-kahypar/partition/refinement/deterministic/deterministic_jet_refiner.cpp: graphAfterburner, calculateGainDelta", "mt-kahypar/partition/refinement/gains/cut_for_graphs/cut_attributed_gains_for_graphs.h: gain"]}
{"id": "C67", "title": "Random and BFS initial partitioning terminate and place every node where it fits whenever it fits anywhere", "statement": "Both algorithms terminate and return a complete partition with every fixed vertex in its block and correct block weights. Every other node is placed exactly once, at a moment when it fits into its block with respect to the perfectly balanced block weights, or when it fits into no block at all. Consequently, with unit node weights the partition is perfectly balanced, provided the fixed vertices are.", "quantifier": "every hypergraph, number of blocks, block weight bounds, set of fixed vertices, sequence of random numbers, choice of start nodes, order of the unassigned nodes, size threshold for ignored hyperedges", "why_tests_cant": "The BFS loop has rounds that assign nothing, because nodes that fit elsewhere are dropped from the queues; termination depends on the next round picking the same unassigned node for every block. Tests run few instances.", "anchors": ["mt-kahypar/partition/initial_partitioning/random_initial_partitioner.cpp: partitionImpl", "mt-kahypar/partition/initial_partitioning/bfs_initial_partitioner.cpp: partitionImpl, pushIncidentHypernodesIntoQueue", "mt-kahypar/partition/initial_partitioning/initial_partitioning_data_container.h: get_unassigned_hypernode, preassignFixedVertices"]}
{"id": "C68", "title": "Label propagation initial partitioning: the selected move is exact and best in terms of the cut of the partial partition", "statement": "For a node with or without a block, in any partial partition, the algorithm keeps the node where it is (or without a block), or selects a different block that the node fits into and in which one of its neighbours is. The score is then exactly the decrease of the cut, where only nodes with a block count; a node that already has a block only moves if the cut strictly decreases. No block that the node fits into and in which it has a neighbour gives a smaller cut.", "quantifier": "every hypergraph, partial assignment, node, number of blocks, balance condition", "why_tests_cant": "The score is accumulated with special cases for connectivity one and two, on partially assigned hyperedges; the check of the score in the code is disabled or not fatal in normal builds.", "anchors": ["mt-kahypar/partition/initial_partitioning/label_propagation_initial_partitioner.cpp: computeMaxGainMoveForUnassignedVertex, computeMaxGainMoveForAssignedVertex, findMaxGainMove"]}
