# Formal model of mt-kahypar in Lean 4: design

Status of each property is in `MANIFEST.json`; this file says what is modelled,
how each property is proved, and what is trusted.

## 1. Method

The model is a set of total, computable Lean functions under `lean/Verif/`, each
carrying a comment with the file and lines of `/repo` it models.  A C++ function that
mutates state becomes a function returning the new state; loops become folds or
structural recursion; a parallel loop becomes either (a) a fold over an arbitrary
permutation / split tree of the iteration space, or (b) a small-step interleaving
semantics whose atomic steps are the atomic operations (or lock-protected critical
sections) of the C++ code.  Properties are stated against a small independent
specification (`Verif/Spec/*.lean`): plain functions from a list of pins and a block
assignment to numbers, with no reference to the counters, bit sets, caches or logs of
the implementation.

Layout
* `Verif/Spec/`      independent specifications (what a user means)
* `Verif/Model/`     the model of the code (what the code does), with source citations
* `Verif/Lemmas/`    auxiliary lemmas
* `Verif/Props/`     the property theorems, one file per group, with non-vacuity examples

## 2. Conventions and simplifications

* ids (`HypernodeID`, `HyperedgeID`, `PartitionID`) are `Nat`; `kInvalidPartition`,
  `kInvalidHypernode` are `Option.none` unless stated otherwise.
* weights (`HypernodeWeight`, `HyperedgeWeight`, `Gain`: int32) are unbounded `Int`
  unless the property is about wrap-around; machine words of the bit-packed structures
  are `BitVec 64`.
* accesses outside arrays are modelled as an explicit failure (`none`) or excluded by
  an explicit well-formedness predicate; every such predicate has an inhabited example.
* `ASSERT`s are compiled out in release builds; they are *not* assumed, only the
  caller contracts that are stated as hypotheses.
* memory model: relaxed atomic read-modify-writes on one location are atomic and
  totally ordered per location; the interleaving semantics is sequentially consistent.
  Effects of weaker orderings across locations are not modelled.

## 3. Properties, model and proof plan

| id | model | proof |
|----|-------|-------|
| C01-C04 | `PartitionedHypergraph` state machine generic in the connectivity-info structure | invariant over op lists |
| C05 | interleaving semantics of `changeNodePart` | invariant over steps |
| C06 | same semantics with log of `SynchronizedEdgeUpdate`s | per-edge telescoping, invariant |
| C07 | `PinCountInPart`, `PinCountSnapshot` on `BitVec 64` | bit-level lemmas, refinement to a table |
| C08 | `SparsePinCounts` | refinement to the same table |
| C09 | `OneBitIterator`, `ConnectivitySets` | iteration lemma |
| C10 | `metrics.cpp` | algebra over sums, reduction trees |
| C11-C13 | gain caches | invariant: cache = recomputed; recomputed = objective difference |
| C14 | gain cache + interleaving semantics | invariant with pending updates |
| C15-C16 | `StaticHypergraph::contract` | per-net lemma + merge lemma |
| C17 | adjacency-array input, dedup, factory | functional correctness under any schedule |
| C18-C19 | `FixedVertexSupport` | invariant / inverse |
| C20 | `setupPartWeights` (both modes), `imbalance`, `isBalanced`; doubles as rationals with a rounding function | arithmetic over every rounding with the IEEE properties (monotone, exact on 53-bit integers, relative error 2^-53), which round-to-nearest-even is proved to have; two witnesses that reported imbalance and bounds disagree |
| C21, C22, C40 | character-level model of the memory-mapped hMetis/Metis parser (pages, comments, line ranges, parallel copies) and of the partition file reader/writer | independent grammar `Spec/FileFormat.lean`; position invariants per line, coverage of the lines by the ranges, order-independence of the copies; safety for arbitrary bytes |
| C23 | `extract`, `extractAllBlocks` with the arrays they fill, every order of their parallel loops | bijection between node/hyperedge ids; independent predicate `ExtractedBlock`; objective decomposition by counting blocks per hyperedge; race witness |
| C24 | move tracker, gain recomputation per hyperedge (3 objectives), claiming, parallel scan for the best prefix, concurrent reverts, sequential variant | per-hyperedge telescoping of recomputed gains; interval invariant of the scan; reuse of the C05/C06 concurrency invariants; negative witness for the round counter |
| C25, C39 | Floyd-Warshall, set and subset enumerators, Steiner tree DP with the k^s table, 32-bit arithmetic, connectivity test, Prim on the metric completion, shared cache | soundness and optimality invariants of the DP over rooted trees; enumerators by lexicographic order; exchange argument and tour argument; inductive invariant over interleavings of cache operations |
| C26 | delta partition over hash maps, delta connectivity set (words), delta gain caches, interleaved with moves on the shared partition | refinement to a pair of assignments; per-hyperedge views during a move; negative witness for the 32-bit index |
| C27 | `DynamicHypergraph::uncontract(batch)`, `restoreSinglePinAndParallelNets`, `IncidentNetArray::uncontract/restoreIncidentNets` on the state reached by C41 and the batches of C28 | the ghost logs of the contraction determine what every uncontraction restores; invariant over the concurrent uncontraction steps; each batch boundary is the hypergraph contracted along the remaining forest |
| C42 | `PartitionedHypergraph::uncontract`, `restoreSinglePinAndParallelNets`, `start` with both connectivity data structures, the callbacks of the km1, cut and soed gain caches, interleaved with refinement | refinement of C27's steps; per-net accounting: cache value + delayed additions = exact value for the current pins; partition of the input represented through the remaining forest |
| C43 | `clusterNodesInRange` of the deterministic coarsener: rating, proposals, swaps, approval, weight fixing as interleavings of single accesses (`Model/DetCoarsening.lean`, generic loops in `Model/Parallel.lean`) | invariant per loop that gives the final values as functions of the start state; round summary (moved nodes, joined weight); invariants over the sub-rounds; completion by rank functions |
| C44 | `refineImpl` of the deterministic label propagation: choice of moves, prefixes of block pairs (recursive and sequential search), revert loops, concurrent execution, undo, activation of neighbours, rounds (`Model/DetLP.lean`) | search: induction over the recursion with `Best` (componentwise longest feasible pair); balance: sum over block pairs of the prefix weights; revert loop: potential function; activation: invariant of the parallel loop; determinism and existence by induction over steps, sub-rounds, rounds |
| C45 | `precomputeGains` (cut, km1, soed, Steiner tree), `computeMaxGainMoveForScores`, the thread-local rating map and isolated block gain (`Model/GainComputation.lean`), on the partition of C01–C04 reached by any history | loop invariants: map content = benefit sums, isolated gain = penalty sum, hence exact by C11's multipliers; scan invariant: best so far among the seen blocks; determinism: two maps with equal dense part stay equal (`Same`) |
| C46 | `removeDegreeZeroHypernodes`, `removeSinglePinAndLargeHyperedges` and their inverses, incidence lists with in-place swaps, `restoreLargeEdge`/`restoreSinglePinEdge`, bin packing (`Model/Preprocess.lean`), partition reached by any history of C01–C04 | segment invariant (active prefix of the incidence list = enabled hyperedges); simulation over the hypergraph padded with empty hyperedges; packing loop: blocks stay sorted by free space; balance from the last node placed in a block |
| C47 | `is_other_better`, thread-local commits, double-checked commit to the shared population with lock and heap repair as small steps, `apply` with and without refinement (`Model/InitialPool.lean`) | preference as lexicographic key order; invariant: every handled run is covered by an entry of the population that is as good; without reads during a repair the population is the set of the best results |
| C48 | `applyMoves` under its lock with `partWeightUpdate`, forward and backward sequences of `changeNodePart` executed step by step, arbitrary results of the searches (`Model/FlowScheduler.lean`) on the concurrent partition of C05–C08 | invariant: the running call is a prefix of its sequence from the state in which it took the lock; attributed gains of the prefix = objective difference (C06); weights of the scheduler = exact weights + deltas; revert always passes the weight check |
| C49 | `initialize`, `addNewCutHyperedge` reading one block at a time without the lock (`Model/FlowScheduler.lean`) | invariant: a pair of blocks of a hyperedge is listed, or waiting in the work list of a search that has not yet passed the other block, or in the log of the running call |
| C50 | `mt_kahypar_create_graph`, `construct_from_graph_edges`, `sort_incident_edges` with the in-place permutation (`Model/StaticGraph.lean`) | segments filled by appends = filtered list of the written ends; loop invariant of the permutation: where the remaining elements are (`Loc`); sorted permutations with distinct keys are equal |
| C51 | `StaticGraph::contract`, `deduplicateTmpEdges`, low and high degree path (`Model/StaticGraph.lean`) | each stage preserves, per target, the sum of weights and the smallest id (`Summ`); a sorted deduplicated list with these values is unique (`canon`), which gives the result in closed form and schedule independence |
| C52 | `ParticipationScheduler` (eligibility, candidate lists, greedy matchings), the round loop, `reportResults` as reads and writes of 64-bit words, the quotient graph (`Model/DetFlow.lean`) | invariant: participation count = number of unprocessed eligible partners, weights and improvement counts only grow, so a nonempty candidate set yields a nonempty matching; `Taken` describes the effect of one matching | 
| C53 | tasks of a matching as interleavings of the atomic steps of `changeNodePart` with one update log per task (`Model/DetFlow.lean`) on the concurrent partition of C02–C04 | invariant: the pin counts of its own two blocks that a task sees are those of its own sequential execution (`TInv`), so each log is the sequential log and its attributed gain telescopes to the objective difference; rounds bounded by the decrease of the objective | 
| C54 | as C52, C53; two executions with independent choices | relation `Same` (equal partition, weights, scheduler; cut lists equal up to order) is preserved by each matching; flags by commutativity of the (atomic) writes; witness run evaluated by the kernel | 
| C55 | `construct` of the problem, `constructDefault` (sequential, parallel), capacities of the three objectives, builder (`Model/FlowNetwork.lean`) | per hyperedge: contribution of the objective = capacity of its net if cut, in all cases of pins inside and outside of the region; merging identical nets preserves the capacity of every cut; sum over the hyperedges incident to the region |
| C56 | `construct`, `BFSData`, `isMaximumProblemSizeReached` (`Model/FlowNetwork.lean`) | invariant of the search (queues contain distinct unvisited nodes), number of iterations bounded by the number of nodes |
| C57 | the four constructions, `deduplicateParallelHyperedges` (`Model/FlowNetwork.lean`) | all equal `mergeAll` of the entries: per pin list, the first number and the sum of the capacities, independent of buckets and orders |
| C58 | `refineImpl` of the flow refiner with an arbitrary flow algorithm that satisfies `Sound`; `detFlow` plugged into the model of C52–C54 | C55 for the returned cut and for the current one; weights of the sides = block weights; composition with C53 |
| C59 | sequential 2-way FM refiner: border tracking, delta gain updates with free/loose/locked hyperedges, queue states, rollback, rounds | invariant: queue entries = exact gains of the untried border nodes, enabled blocks = non-full blocks with entries; a locked hyperedge has a moved pin in both blocks; `loop_inv` over all choices |
| C60 | Kernighan-Lin swaps: `swap_gain` with marked hyperedges, lazy queue, best prefix, rollback, fruitless rounds | gain = difference of the objective (one-to-one ⇒ block sets change by an exchange); pass measure (unmoved nodes, stale entries); passes: objective decreases or fruitless counter increases |
| C61 | greedy mapping: preassignment of fixed nodes, ratings, queue with outdated entries, selection of the processor | invariant `GInv` (assigned ⇔ not up to date, used processors, injective); measure (unassigned nodes, outdated entries); counting gives a free processor |
| C62 | candidates for all seed nodes, commit rule in any order, application to the partition through C15's contraction | feasible best ⇒ rule = lexicographic minimum, hence order independent; coarse node = block; `objective_eq` of C15 with the Steiner distance |
| C63 | one round: proposed moves (rating map of C45), sorting, shortest prefix, concurrent moves of C44; loop of rounds | proposed block = minimum over all blocks with room (C45); lists sorted by a strict total order are unique ⇒ same moves ⇒ C44's `moves_spec`; weights by summing over blocks |
| C64 | proposals, afterburner, concurrent moves of C44, rebalancer of C63, best partition and metrics, rollback, both loops | invariant: best metrics are those of the best partition, `was_already_balanced` iff it is balanced, it is the input or better; termination by the lexicographic potential (was balanced, quality or imbalance, iterations left); determinism by a relation between two runs |
| C65 | two-pin shortcut, sorting (with the cases of two and three pins), scan with the pin counts of the snapshot, atomic additions in any order, edges once in any order | scan: pin counts are those after the earlier proposals, telescoping gives per hyperedge differences of terms; sorted lists are unique |
| C66 | `graphAfterburner`, `calculateGainDelta` as sums over adjacency arrays; thread-local sums over any distribution of the nodes | attributed gain of one edge = change of its cut term; the rule `other node < hn` makes the sum telescope along the ascending order of the nodes |
| C67 | `RandomInitialPartitioner::partitionImpl`, `BFSInitialPartitioner::partitionImpl` (queues, flags, round robin), `get_unassigned_hypernode`; random numbers and start nodes arbitrary | every turn of a block either places a node that fits (or fits nowhere) or empties its queue; of two consecutive rounds at least one places a node, because an empty round leaves the same unassigned node for every block |
| C68 | `computeMaxGainMove` of the label propagation initial partitioner: scan of the incident hyperedges and `findMaxGainMove`; connectivity sets of the partial assignment | block set of a hyperedge = blocks of the other pins plus the node's; score minus internal weight = change of the cut, hyperedge by hyperedge; a block is valid iff a neighbour is in it |
| C41 | small-step semantics of concurrent `contract` calls on the dynamic hypergraph: pending counters, node/net locks, pin swaps, linked incident net lists with in-place removals, removal of single-pin and parallel nets | ghost history (which contraction removed / replaced which pin), forest lemma on counts of images, inductive invariant over all steps; quiescence + acyclicity gives `ContractedBy` |
| C28 | `ContractionTree::finalize`, `BatchIndexAssigner`, `createBatchUncontractionHierarchyForVersion`; one step per atomic access of every thread; any element of a queue may be popped | independent predicate `Schedule.Forest.Valid`; inductive invariant over interleavings (history of assigned groups), ranking function for termination |
| C29 | heap | heap invariant |
| C30 | prefix sum body | induction on split tree |
| C31 | sparse map, flag arrays | refinement to function |
| C32, C38 | small-step semantics of `matchVertices`/`joinCluster`, one process per node, arbitrary targets | inductive invariant over interleavings (cycles of targets as iterates); termination: ranking function plus solo-progress of the smallest node of a waiting cycle; witnesses by executing schedules |
| C33 | `recursive_bipartitioning` incl. extraction, fixed vertex translation, `adaptWeightsOfNonCutEdges`, and the interleaved application of the two sub-results; bipartitioner is an oracle | induction on k with the specification relation `HG.RB` (tree of bipartitions with costs) |
| C34 | parameter setters and getters, presets, type dispatch of the C API, casts | case analysis over enums for arbitrary strings and contexts |
| C35 | counting sort (sequential and parallel branch), random buckets, grouping, Feistel network; all single writes of parallel loops in arbitrary order | position of each element = offset + rank; writes are a permutation of one write per position; Feistel rounds undone by reverse induction |
| C36-C37 | `PartitionedGraph` small-step semantics with `EdgeMove` records, graph cut gain cache | per-edge "view" invariant over all interleavings |

## 4. Trusted base

* Lean 4.33.0 kernel; axioms at most `propext`, `Classical.choice`, `Quot.sound`.
* The reading of the C++ code documented by the citation at each definition.
* TBB primitives behave as documented (each iteration executed exactly once, joins
  synchronise); `std::sort` sorts; `std::unique` removes adjacent duplicates.
* The external `kahypar::ds::KWayPriorityQueue` (C59): one queue per block; a block without entries is not enabled; `deleteMax` returns an entry
  with the largest key of all enabled blocks; `empty` holds if no block is enabled.

## 5. Not modelled

Thread timing, memory allocation and exhaustion, logging, the command line front end, the maximum flow algorithm
(the library WHFC is external; C58 states its contract `Sound`), `determineDistanceFromCut`, community detection, initial partitioning algorithms other than random and BFS (of label propagation only the move selection is modelled), NUMA pinning; floating point only for the balance computations (C20).  Each model file's header and each definition's
comment state further simplifications.

## 6. Findings

Deviations of the code from what one would expect, found while modelling.  Those with a theorem name are proved as
statements about the model; the others were noticed while reading and are not formalised.

Proved witnesses

* Deterministic coarsening with fixed vertices depends on the schedule (`C43_fixed_schedule_dependent`):
  `clusterNodesInRange` ignores the result of `contractWithoutChains` (only an `ASSERT`), so nodes join although the
  block of the fixed vertex is full, and which of two joining nodes increases the weight of the block depends on
  their order; the weight decides about contractions of the next sub-round.
* In the partition type of the LARGE_K preset the best move of a node depends on the history of the partition even with
  randomisation disabled (`C45_large_k_history`): ties are broken by the order of the blocks in the rating map, which is
  the order in which blocks were added to the connectivity set. The deterministic presets do not use this type.
* Deterministic label propagation can make an overloaded block heavier (`C44_overloaded_grows`): the negative budget is
  converted to `size_t` before the division by the number of incoming directions, so for three or more directions the
  bound is large and positive.
* Deterministic coarsening with weightless nodes miscounts clusters (`C43_zero_weight_count`): a node that leaves its
  cluster although a weightless node has joined counts as contracted. The heavy assertion does not notice because it
  skips clusters of recalculated weight zero.

* `C10_contribution_cut_wrong`: `metrics::contribution` returns the SOED contribution for the objective cut.
* `C19_zero_weight_fixed_vertices_lost`, `C33_zero_weight_fixed_vertex_ignored`: `hasFixedVertices()` tests the total
  fixed weight, so fixed vertices of weight zero are lost during coarsening.
* `C20_imbalance_above_epsilon`, `C20_imbalance_below_epsilon`: reported imbalance and block weight bounds disagree by
  rounding, in both directions.
* `C21_trailing_garbage_accepted`, `C22_missing_line_accepted`, `C40_missing_vertex_accepted`,
  `C22_page_multiple_unreadable`, `C40_page_multiple_unreadable`: file parsing.
* `C23_extract_race`: extraction of a block concurrent with moves inside `changeNodePart` (recursive bipartitioning,
  k >= 4, cut objective) sees transient connectivity values.
* `C24_round_counter_wraps`: the rollback's hyperedge round counter is reset by wrapping around 2^32.
* `C25_api_two_blocks`, `C25_enumerator_diverges`, `C25_parallel_edges`, `C25_self_loop`, `C25_partitioner_bound`,
  `C39_hash_collision`: target graph distances.
* `C26_pin_count_index_overflow`, `C26_pin_count_wrong`: 32-bit index `e * k + p` in the delta partition.
* `C30_commutativity_needed`: `ParallelPrefixSumBody::reverse_join` adds in swapped order.
* `C31_fixed_size_map_full`: searching a full `FixedSizeSparseMap` does not terminate.
* `C32_limit_exceeded`, `C38_double_count`, `C38_chain_possible`: races of the multilevel coarsener.
* `C34_number_of_blocks_unchecked`, `C34_get_objective_default`, `C34_undefined_preset`, `C34_negative_block_accepted`.
* `C35_group_by_stale`: grouping of ids beyond the number of grouped elements reads buckets of earlier calls.

* `C46_packing_not_optimal`: the greedy placement of degree-zero nodes can overload a block although a balanced placement
  exists. `C46_removed_counter_not_reset`: the number of removed nodes is not decremented by the restoration, so a second
  partitioning call on the same hypergraph object removes fewer degree-zero nodes.

* `C47_infeasible_ties`: `is_other_better` does not order infeasible partitions with equal imbalance and different
  objectives, the first one committed stays; in deterministic mode the result depends on the schedule and can be the
  worse partition. `C47_population_race`: the unprotected comparison with the front of the heap can see the front
  during a heap repair and reject a run that belongs to the best ones; if the population is refined
  (`i-perform-refinement-on-best-partitions`), the selected partition depends on the schedule in deterministic mode.
* `C51_witness_zero_weight`: `TmpEdgeInformation::isValid` is `weight != 0`, but edges of weight zero are accepted by the readers and
  by `mt_kahypar_create_graph`. Contraction then drops the zero-weight edge and all edges behind it in the segment of one end
  node only: the coarse graph is not symmetric, has an odd number of directed edges, and cuts are not preserved.
* `C50_witness_stable_order`: the "stable" order of incident edges depends on the schedule if there are parallel edges.
* `C54_lost_flag_witness`: `ParticipationScheduler::reportResults` is called by concurrent tasks and writes to `vec<bool>`, which packs 64 flags
  into a word, without synchronisation. A flag can get lost; the blocks are then not active in the next round, and two runs of the
  *deterministic* flow refinement with the same input give different partitions (k >= 4).
* `C57_graph_schedule_witness`: for graphs, `ParallelConstruction` uses the non-deterministic `constructDefault` also in deterministic mode
  (parallel_construction.cpp:119-122), because only the deduplication of hyperedges is seen as non-deterministic. But several edges from one region node
  to outside nodes of a block become identical nets, and whether the concurrent search finds them depends on the schedule: number and order of the nets of the
  network differ between runs.
* `C49_reverted_witness`: if a move sequence is taken back, the quotient graph can lose a cut hyperedge: another search reads the connectivity set
  in between and does not see the block that comes back (only later flow problems of the pair are affected).
* `C59_soed_witness`: for k = 2 and the objective `soed` (direct initial partitioning) the 2-way FM refiner is started with the `soed` value but subtracts
  cut gains; the reported quality is neither the `soed` nor the cut value of the result (recursive bipartitioning sets the objective to cut).

* `C61_unassigned_witness`: greedy mapping with a fixed seed node and no hyperedge that connects a fixed and a free block: the queue is empty, the free
  blocks stay unassigned (the debug assertion "There are unassigned nodes" would fail), and since the objective of this incomplete mapping is smaller it
  is selected and applied. `C61_no_processor_witness`: with individual block weights and no free processor that is large enough for the seed node, the
  first element of an empty vector is read.
* `C61_unbalanced_witness`: `best_is_balanced |= is_balanced` precedes the test `is_balanced && !best_is_balanced` (greedy_mapping.cpp:225-226), which is
  therefore always false; a block can be put on a processor on which it does not fit although it fits on another free one.
* `C62_schedule_witness`: if the given mapping is infeasible, the best mapping depends on the order of the critical sections, also in deterministic mode;
  `C62_best_mapping`: if all mappings have the same infeasible imbalance, no improvement of the objective is ever taken.

* Deterministic Jet, soed (C65): `afterburn_two_pins` adds the weight `w` for a hyperedge of size two, but soed changes by `2w` (Lean: `C65_soed_two_pins`). The executed set of moves then depends on a wrong value; the objective is still tracked exactly. By reading, the shortcut also ignores the block distances of the Steiner tree metric.

Noticed while reading

* `map_to_target_graph`: with an empty block `repairEmptyBlocks` builds the contracted hypergraph without fixed vertices, so the mapping can move fixed
  nodes; with more blocks than nodes the identity is used for the contraction and the ids do not correspond to blocks.
* `metrics::contribution` uses the `soed` contribution for the objective `cut` (metrics.cpp).
* `cut_he_weight` of the quotient graph is only ever increased, and a hyperedge can be entered several times, so the order of the pairs in the
  deterministic flow refinement and their eligibility use an upper bound of the cut weight.

* The unprotected read of `_best_partitions[0]` in `commit` is a data race; `pop_heap` is called on a range that is no heap
  (its front was replaced); with fewer runs than the population size the refinement of the population works on
  default entries with invalid block ids.

* `isBorderNode` returns false for nodes of degree above 100000 (visible through `is_incident_to_cut_edge` in Python).
* `extractAllBlocks(k, ...)` indexes `hes2block[block]` unguarded for k smaller than the number of blocks.
* `FixedVertexSupport::contractImpl` reads the weight of `u` before taking the lock; `contractWithoutChains` adds the
  weight of `v` without recording it at `v`.
* `SparsePinCounts::setPinCountInPart` appends without looking for an existing entry.
* `SynchronizedEdgeUpdate::edge_weight` is unsigned, its negation wraps modulo 2^32 and is converted back.
* `ThreadSafeFastResetFlagArray::swap` does not exchange `_size`; `resize(size, init)` ignores `init` when not growing.
* Contracted hypergraphs have no sentinel node, `restoreEdge` reads `hypernode(u + 1)` for the last node;
  `restoreEdge` and `restoreDegreeZeroHypernode` never decrement the counters of removed elements.
* The factory computes `num_hypernodes + 1` in 32 bits and `max() - rhs` for possibly negative weights.
* `adaptWeightsOfNonCutEdges` doubles 32-bit weights.
* `compute_buckets(0)` divides by zero; `split_lines` divides by zero if `hardware_concurrency()` is zero;
  `PinCountInPart::num_elements` divides by zero for a largest hyperedge size of zero.
* Batches of the n-level uncoarsening can exceed the requested size by the last group of simultaneously contracted
  siblings (C28); for a batch size of zero the counters are accessed out of range, and `numberOfNonEmptyBatches` reads
  index 0 of an empty array if there are no nodes.
* `local_batch_indices` is read by other threads without synchronisation (no influence on the result in the model).
* `writePartitionFile` does not check the state of the stream.
* `IncidentNetArray::reset` (V-cycles) sets the current version and the versions of *active* entries to 0, but entries
  removed by preprocessing keep version 0, so the first uncontraction of a V-cycle re-activates disabled nets.
* `registerContraction` can create a cycle: two threads holding disjoint locks can both pass their final cycle check
  (A registers a onto b while b hangs below c, B registers c onto x while x hangs below a); nodes contracted below a
  cycle are never uncontracted.
* `FixedVertexSupport::contractImpl` adds the weight before it checks and subtracts it on failure, so a concurrent
  failing attempt can refuse a contraction spuriously; a thread still holding the refused pair can then contract a node
  onto another node than its recorded parent.
* `uncontract` does not restore the hashes of the nets (in V-cycles parallel nets can be missed).
* `mt_kahypar_create_target_graph` does not call `check_overflow`: with 32-bit ids, end nodes of 2^32 or more are silently truncated.
* `create_partitioned_hypergraph` and `read_partition_from_file` do not check block ids against the number of blocks.
* `registerContraction(u, u)` waits for its own lock.
* Graph rollback with `rollback_parallel = true` and `iter_moves_on_recalc = false` counts every gain twice.
* A net without pins (possible through the C API) is removed as a "single pin net" of the n-level coarsening with an
  invalid representative; when it is restored, its size is not 1, so it takes the branch for parallel nets and reads
  the representative with an invalid id.
* `removeEdge`/`removeLargeEdge` of the dynamic hypergraph do not clear the flags of earlier calls in `_he_bitset`.
* The factory's `Contraction` keeps the total weight including removed nodes.
* `lib::num_nodes` and the like go through `PartitionID`, i.e. 32 signed bits.
* An empty input file ends in an mmap error; comment lines between node weight lines are rejected.
* Deterministic label propagation: when the round counter wraps to 0, `last_moved_in_round` is filled with 0, so nothing is
  activated in that round; for e.g. 100 sub-rounds the debug assertion `first_bucket < last_bucket` fails; with an
  overloaded block the recursive and the sequential prefix search can differ, so their debug comparison can fail.
* `changeNodePart` changes the block weights before `_part_ids`, so a concurrent reader can see weights that no assignment has.
* `_edge_sync_version` (uint32) wraps around.
* `changeNumberOfBlocks` of the gain computation compares with `size()` and always reallocates (harmless).
* `QuotientGraph::changeNumberOfBlocks` resizes the edges without setting their `blocks`.
* `_num_removed_hyperedges` of the static hypergraph is never decremented on restoration.
