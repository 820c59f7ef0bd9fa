{
 "claims": [
  {
   "property": "C01",
   "status": "proved",
   "theorems": [
    "Verif.C01_pin_counts_exact",
    "Verif.C01_pin_counts_exact_sparse"
   ],
   "note": "both hypergraph partition types; every legal history of build/assign/move"
  },
  {
   "property": "C02",
   "status": "proved",
   "theorems": [
    "Verif.C02_connectivity_exact",
    "Verif.C02_connectivity_exact_sparse"
   ],
   "note": ""
  },
  {
   "property": "C03",
   "status": "proved",
   "theorems": [
    "Verif.C03_block_weights_exact",
    "Verif.C03_block_weights_exact_sparse"
   ],
   "note": ""
  },
  {
   "property": "C04",
   "status": "proved",
   "theorems": [
    "Verif.C04_rejected_move_no_effect",
    "Verif.C04_rejected_move_no_effect_sparse"
   ],
   "note": ""
  },
  {
   "property": "C07",
   "status": "proved",
   "theorems": [
    "Verif.C07_packed_refines_table",
    "Verif.C07_write_isolated",
    "Verif.C07_index_in_bounds",
    "Verif.C07_snapshot"
   ],
   "note": ""
  },
  {
   "property": "C08",
   "status": "proved",
   "theorems": [
    "Verif.C08_sparse_refines_table"
   ],
   "note": ""
  },
  {
   "property": "C09",
   "status": "proved",
   "theorems": [
    "Verif.C09_iteration_exact"
   ],
   "note": ""
  },
  {
   "property": "C10",
   "status": "proved",
   "theorems": [
    "Verif.C10_metrics_exact",
    "Verif.C10_metrics_exact_sparse",
    "Verif.C10_soed_eq_km1_add_cut",
    "Verif.C10_cut_le_km1",
    "Verif.C10_graph_metrics_exact",
    "Verif.C10_contribution_cut_wrong",
    "Verif.C10_contribution_km1_soed"
   ],
   "note": "sequential and parallel evaluation for both partition types and graphs; helper contribution() proved wrong for cut"
  },
  {
   "property": "C05",
   "status": "proved",
   "theorems": [
    "Verif.C05_never_overloaded",
    "Verif.C05_never_overloaded_sparse",
    "Verif.C05_pin_counts_after_concurrent_moves"
   ],
   "note": "small-step interleaving semantics, arbitrary schedules, sequentially consistent atomics"
  },
  {
   "property": "C06",
   "status": "proved",
   "theorems": [
    "Verif.C06_attributed_gains_sum",
    "Verif.C06_attributed_gains_sum_sparse"
   ],
   "note": "any schedule, any of the three objectives"
  },
  {
   "property": "C11",
   "status": "proved",
   "theorems": [
    "Verif.C11_km1_gain_exact",
    "Verif.C11_C13_gain_exact_sparse"
   ],
   "note": "initialisation (any distribution of work) + any concurrent schedule + recomputation of moved nodes"
  },
  {
   "property": "C12",
   "status": "proved",
   "theorems": [
    "Verif.C12_cut_gain_exact",
    "Verif.C11_C13_gain_exact_sparse"
   ],
   "note": ""
  },
  {
   "property": "C13",
   "status": "proved",
   "theorems": [
    "Verif.C13_soed_gain_exact",
    "Verif.C11_C13_gain_exact_sparse"
   ],
   "note": ""
  },
  {
   "property": "C14",
   "status": "proved",
   "theorems": [
    "Verif.C14_cache_survives_concurrency"
   ],
   "note": ""
  },
  {
   "property": "C29",
   "status": "proved",
   "theorems": [
    "Verif.C29_priority_queue",
    "Verif.C29_max_heap"
   ],
   "note": "any arity >= 2, any strict total order, arbitrary garbage in the shared positions array"
  },
  {
   "property": "C30",
   "status": "proved",
   "theorems": [
    "Verif.C30_parallel_prefix_sum",
    "Verif.C30_tbb_prefix_sum",
    "Verif.C30_commutativity_needed"
   ],
   "note": "every schedule permitted by the contract of tbb::parallel_scan; commutativity shown necessary"
  },
  {
   "property": "C31",
   "status": "proved",
   "theorems": [
    "Verif.C31_sparse_map",
    "Verif.C31_fixed_size_map",
    "Verif.C31_dynamic_sparse_map",
    "Verif.C31_dynamic_flat_map",
    "Verif.C31_flag_array",
    "Verif.C31_concurrent_compare_and_set",
    "Verif.C31_fixed_size_map_full"
   ],
   "note": "refinement to plain maps; 64-bit time stamps of the hash maps are unbounded in the model"
  },
  {
   "property": "C15",
   "status": "proved",
   "theorems": [
    "Verif.C15_coarsening_preserves_objective",
    "Verif.C15_hierarchy_preserves_objective"
   ],
   "note": "StaticHypergraph::contract, all schedules of its parallel loops, arbitrary content of the reused buffers; also for whole hierarchies of contractions."
  },
  {
   "property": "C16",
   "status": "proved",
   "theorems": [
    "Verif.C16_contract_wellformed",
    "Verif.C16_contract_quotient"
   ],
   "note": "StaticHypergraph::contract stage by stage on adjacency arrays, with the real footprint function and bucket map."
  },
  {
   "property": "C17",
   "status": "proved",
   "theorems": [
    "Verif.C17_rejects_iff",
    "Verif.C17_construct",
    "Verif.C17_total_weight"
   ],
   "note": "create_hypergraph_from_adjacency_array + StaticHypergraphFactory::construct; non-negative node weights; every thread assignment, pin write order and reduction tree"
  },
  {
   "property": "C36",
   "status": "proved",
   "theorems": [
    "Verif.C36_graph_block_weights",
    "Verif.C36_graph_never_overloaded",
    "Verif.C36_graph_attributed_gains"
   ],
   "note": "small-step interleaving semantics incl. the version-stamped EdgeMove records; unbounded version counter"
  },
  {
   "property": "C37",
   "status": "proved",
   "theorems": [
    "Verif.C37_graph_gain_exact"
   ],
   "note": "any initialisation order, any schedule of synchronized moves"
  },
  {
   "property": "C18",
   "status": "proved",
   "theorems": [
    "Verif.C18_contract_conservative",
    "Verif.C18_uncontraction_restores",
    "Verif.C18_cluster_fixed_iff",
    "Verif.C18_fixed_block_weights"
   ],
   "note": "n-level contraction/uncontraction histories; hypothesis: at least one fixed node has positive weight (otherwise the code skips the fixed vertex logic, see C19 finding)"
  },
  {
   "property": "C19",
   "status": "partial",
   "theorems": [
    "Verif.C19_coarse_fixed_vertices_partial",
    "Verif.C19_projection_respects_fixed",
    "Verif.C19_add_fixed_vertices",
    "Verif.C19_zero_weight_fixed_vertices_lost"
   ],
   "note": "proved whenever some fixed node has positive weight; the full statement is false of the code when all fixed nodes have weight zero (negation proved)"
  },
  {
   "property": "C32",
   "status": "proved",
   "theorems": [
    "Verif.C32_weight_limit",
    "Verif.C32_weight_limit_sequential",
    "Verif.C32_terminates",
    "Verif.C32_no_deadlock",
    "Verif.C32_cluster_ids",
    "Verif.C32_limit_exceeded"
   ],
   "note": "small-step semantics of matchVertices/joinCluster, arbitrary targets; termination for all fair infinite executions; the (T-1)-node slack is shown to be attained"
  },
  {
   "property": "C38",
   "status": "partial",
   "theorems": [
    "Verif.C38_sequential",
    "Verif.C38_flat_partial",
    "Verif.C38_exact_partial",
    "Verif.C38_double_count",
    "Verif.C38_chain_possible"
   ],
   "note": "proved for one thread and for concurrent schedules without resolved cyclic dependency (flatness: without late process); the full statement is false of the code: double counting and chains are exhibited by reachable schedules"
  },
  {
   "property": "C35",
   "status": "proved",
   "theorems": [
    "Verif.C35_counting_sort",
    "Verif.C35_stable_order",
    "Verif.C35_buckets",
    "Verif.C35_random_grouping",
    "Verif.C35_grouping_exists",
    "Verif.C35_group_by_perm",
    "Verif.C35_group_by_stale",
    "Verif.C35_feistel",
    "Verif.C35_feistel_bits"
   ],
   "note": "The Mersenne twister is an arbitrary function of seed and index; std::shuffle (create_integer_permutation, unused by the partitioner) is not modelled. C35_group_by_stale shows that grouping node ids larger than the number of grouped elements (deterministic label propagation with active nodes) reads buckets of earlier calls."
  },
  {
   "property": "C26",
   "status": "proved",
   "theorems": [
    "Verif.C26_overlay_exact",
    "Verif.C26_overlay_exact_sparse",
    "Verif.C26_clear",
    "Verif.C26_pin_count_index_overflow",
    "Verif.C26_pin_count_wrong"
   ],
   "note": "Hypergraph delta partition with delta connectivity set and delta gain caches (km1, cut, soed); covers concurrent shared moves of other nodes. Needs (number of hyperedges)*k <= 2^32: the map index is computed in 32 bits, C26_pin_count_wrong exhibits a wrong pin count otherwise. DeltaPartitionedGraph is not modelled."
  },
  {
   "property": "C24",
   "status": "proved",
   "theorems": [
    "Verif.C24_parallel_rollback",
    "Verif.C24_sequential_rollback",
    "Verif.C24_parallel_rollback_sparse",
    "Verif.C24_recalculated_gains",
    "Verif.C24_recorded_moves",
    "Verif.C24_net_effect",
    "Verif.C24_tracker",
    "Verif.C24_round_counter_wraps"
   ],
   "note": "Hypergraph partitions, objectives km1/cut/soed, both rollback variants, all concurrent executions (recording, claiming of hyperedges, thread-local tables, tbb::parallel_scan within its contract, concurrent reverts). Round counter below 2^32 (C24_round_counter_wraps shows the failure otherwise), no removed hyperedges with iter_moves_on_recalc=false. Not modelled: plain graph partitions, steiner_tree, interleaving with rebalancing moves."
  },
  {
   "property": "C25",
   "status": "proved",
   "theorems": [
    "Verif.Steiner.C25_steiner_distance",
    "Verif.Steiner.C25_shortest_path",
    "Verif.Steiner.C25_trivial_sets",
    "Verif.Steiner.C25_connectivity_test",
    "Verif.Steiner.C25_rejects_disconnected",
    "Verif.Steiner.C25_table_index",
    "Verif.Steiner.C25_set_enumerator",
    "Verif.Steiner.C25_subset_enumerator",
    "Verif.Steiner.C25_no_overflow",
    "Verif.Steiner.C25_enumerator_diverges",
    "Verif.Steiner.C25_api_two_blocks",
    "Verif.Steiner.C25_api_bound",
    "Verif.Steiner.C25_partitioner_bound",
    "Verif.Steiner.C25_parallel_edges",
    "Verif.Steiner.C25_self_loop",
    "Verif.Steiner.C25_example"
   ],
   "note": "Optimal Steiner trees for every connected simple target graph with nonnegative weights of total < kInvalidDistance and bound s <= k+1 (always met by the partitioner; the API metric's bound 4 needs k >= 3: C25_api_two_blocks shows the enumerator never ends for k = 2). 32-bit arithmetic shown equal to unbounded arithmetic. Parallel edges and self loops in the target graph give wrong distances (witnesses)."
  },
  {
   "property": "C39",
   "status": "proved",
   "theorems": [
    "Verif.Steiner.C39_spanning_tree",
    "Verif.Steiner.C39_two_approximation",
    "Verif.Steiner.C39_no_overflow",
    "Verif.Steiner.C39_concurrent_requests",
    "Verif.Steiner.C39_deterministic",
    "Verif.Steiner.C39_modified_sets",
    "Verif.Steiner.C39_hash_collision",
    "Verif.Steiner.C39_example"
   ],
   "note": "Prim with lazy queue = minimum spanning tree of the metric completion (exchange argument), 2-approximation (tour argument), all interleavings of look-up/insert on the shared cache. k <= 64 needed: C39_hash_collision."
  },
  {
   "property": "C20",
   "status": "proved",
   "theorems": [
    "Verif.Balance.C20_perfect_weight",
    "Verif.Balance.C20_max_weights",
    "Verif.Balance.C20_bound_ge",
    "Verif.Balance.C20_feasible",
    "Verif.Balance.C20_bound_value",
    "Verif.Balance.C20_balanced_imbalance",
    "Verif.Balance.C20_imbalance_within",
    "Verif.Balance.C20_imbalance_above_epsilon",
    "Verif.Balance.C20_imbalance_below_epsilon",
    "Verif.Balance.C20_individual_rejected",
    "Verif.Balance.C20_individual_accepted",
    "Verif.Balance.C20_is_balanced",
    "Verif.Balance.C20_example",
    "Verif.Ieee.rne_rounding"
   ],
   "note": "All theorems for every rounding function satisfying the IEEE properties; rne_rounding shows that round-to-nearest-even does. The exact equivalence imbalance <= epsilon iff within bounds is false: witnesses C20_imbalance_above_epsilon (eps 0.03, block weight 103, bound 103) and C20_imbalance_below_epsilon. Total weight 0 (division by zero) and conversions that do not fit into int32 excluded."
  },
  {
   "property": "C23",
   "status": "proved",
   "theorems": [
    "Verif.Extract.C23_extract_dense",
    "Verif.Extract.C23_extract_sparse",
    "Verif.Extract.C23_extract_all_dense",
    "Verif.Extract.C23_generic",
    "Verif.Extract.C23_all_generic",
    "Verif.Extract.C23_km1",
    "Verif.Extract.C23_cut",
    "Verif.Extract.C23_extract_race"
   ],
   "note": "PartitionedHypergraph::extract and extractAllBlocks stage by stage on the arrays they fill, any schedule of the parallel loops, both pin count structures; composition theorems for km1 (splitting) and cut (no splitting). C23_extract_race shows that extraction concurrent with moves in the middle of changeNodePart (which recursive bipartitioning permits for k >= 4) can extract a wrong set of hyperedges."
  },
  {
   "property": "C33",
   "status": "proved",
   "theorems": [
    "Verif.C33_leaves",
    "Verif.RBip.C33_generic",
    "Verif.RBip.C33_recursive_bipartitioning",
    "Verif.RBip.C33_recursive_bipartitioning_sparse",
    "Verif.RBip.C33_zero_weight_fixed_vertex_ignored"
   ],
   "note": "The multilevel bipartitioning calls are an arbitrary oracle returning blocks 0/1 (respecting fixed vertices for the fixed vertex part). The two concurrent recursive calls interleave at the granularity of whole node moves; finer interleavings with extract are a race of the code (C23_extract_race)."
  },
  {
   "property": "C34",
   "status": "proved",
   "theorems": [
    "Verif.Api.C34_set_parameter",
    "Verif.Api.C34_set_parameter_complete",
    "Verif.Api.C34_number_of_blocks_unchecked",
    "Verif.Api.C34_set_partitioning",
    "Verif.Api.C34_get_objective_default",
    "Verif.Api.C34_individual_weights",
    "Verif.Api.C34_preset_roundtrip",
    "Verif.Api.C34_undefined_preset",
    "Verif.Api.C34_created_compatible",
    "Verif.Api.C34_partition_dispatch",
    "Verif.Api.C34_improve_dispatch",
    "Verif.Api.C34_map_blocks",
    "Verif.Api.C34_create_partition",
    "Verif.Api.C34_negative_block_accepted"
   ],
   "note": "std::stod and the double-to-integer conversions are arbitrary functions; the partitioning algorithm behind the dispatch is not part of this model. Findings: numbers of blocks are not validated (fractions, negative numbers, trailing text accepted), getters report CUT / DETERMINISTIC for unset or steiner_tree values, the checked interface accepts negative blocks."
  },
  {
   "property": "C21",
   "status": "proved",
   "theorems": [
    "Verif.FileIO.C21_read_partition",
    "Verif.FileIO.C21_written_text",
    "Verif.FileIO.C21_round_trip",
    "Verif.FileIO.C21_wrong_size",
    "Verif.FileIO.C21_trailing_garbage_accepted"
   ],
   "note": "Stream extraction (operator>>) modelled by its standard definition; failing writes are not reported by the code and not modelled. Finding: text behind the last number is ignored."
  },
  {
   "property": "C22",
   "status": "proved",
   "theorems": [
    "Verif.FileIO.C22_read_hypergraph",
    "Verif.FileIO.C22_result_well_formed",
    "Verif.FileIO.C22_page_multiple_unreadable",
    "Verif.FileIO.C22_missing_line_accepted",
    "Verif.FileIO.C22_example"
   ],
   "note": "Character-level model of the memory-mapped parser. Findings: files whose length is a multiple of the page size are never readable (access behind the mapping); a missing last hyperedge line is accepted if it falls into its own range."
  },
  {
   "property": "C40",
   "status": "proved",
   "theorems": [
    "Verif.FileIO.C40_read_graph",
    "Verif.FileIO.C40_result_well_formed",
    "Verif.FileIO.C40_page_multiple_unreadable",
    "Verif.FileIO.C40_missing_vertex_accepted",
    "Verif.FileIO.C40_example"
   ],
   "note": "As C22. Finding: a missing last vertex line is accepted, its weight is silently 0."
  },
  {
   "property": "C28",
   "status": "proved",
   "theorems": [
    "Verif.Uncontract.C28_hierarchy_valid",
    "Verif.Uncontract.C28_every_contraction_once",
    "Verif.Uncontract.C28_parent_first",
    "Verif.Uncontract.C28_batch_size",
    "Verif.Uncontract.C28_terminates",
    "Verif.Uncontract.C28_counters_in_range",
    "Verif.Uncontract.C28_returns",
    "Verif.Uncontract.exampleTree_ok",
    "Verif.Uncontract.C28_example"
   ],
   "note": "Every interleaving of the threads' atomic accesses, every order of the parallel loops of finalize. Hypotheses: well-formed contraction forest (acyclic, child version <= parent version, proper intervals), at least one node, batch size >= 1. The priority order of the queues is over-approximated (any element may be popped). The size bound holds up to the last group of simultaneous siblings; without simultaneous siblings exactly (C28_batch_size)."
  },
  {
   "property": "C41",
   "status": "proved",
   "theorems": [
    "Verif.Dyn.C41_contracted",
    "Verif.Dyn.C41_objective",
    "Verif.Dyn.C41_no_failure",
    "Verif.Dyn.C41_weight_limit"
   ],
   "note": "Small-step model of contract/contractImpl at the granularity of the locked critical sections, linked incident net lists modelled entry by entry. Quiescent states with an acyclic contraction forest: the cycle checks of registerContraction are not part of this model (acyclicity is a hypothesis; DESIGN section 6 describes a race in them). Parallel net detection is represented by its result (any set of nets with equal pins may be merged). Pairs refused by the fixed vertex check are assumed to stay refused."
  },
  {
   "property": "C27",
   "status": "proved",
   "theorems": [
    "Verif.Dyn.C27_contracted",
    "Verif.Dyn.C27_inverse",
    "Verif.Dyn.C27_objective",
    "Verif.Dyn.C27_progress",
    "Verif.Dyn.C27_restore_nets",
    "Verif.Dyn.C27_batch_no_failure",
    "Verif.Dyn.C27_ends",
    "Verif.Dyn.C27_tree",
    "Verif.Dyn.C27_round_trip",
    "Verif.Dyn.C27_prepared",
    "Verif.Dyn.w_ready"
   ],
   "note": "Built on the coarsening model of C41 and the schedules of C28 (C27_round_trip composes the three). Same hypotheses as C41 (acyclic forest at quiescence); numbers of versions and contractions below the sentinel values. The critical sections of uncontract(batch) are atomic steps, the scan of the pin list reads slot by slot without lock. The partitioned hypergraph (pin counts, gain cache) is the subject of C42."
  },
  {
   "property": "C42",
   "status": "proved",
   "theorems": [
    "Verif.Dyn.C42_partition_exact",
    "Verif.Dyn.C42_gain_exact",
    "Verif.Dyn.C42_objective",
    "Verif.Dyn.C42_batch",
    "Verif.Dyn.C42_nets",
    "Verif.Dyn.C42_batch_no_failure",
    "Verif.Dyn.C42_nets_no_failure",
    "Verif.Dyn.C42_completes",
    "Verif.Dyn.C42_end",
    "Verif.Dyn.w_begin",
    "Verif.Dyn.w_begin_sparse"
   ],
   "note": "Built on the uncontraction model of C27 (hypothesis Ready, which includes the acyclic forest at quiescence) and the concurrent move model of C05-C08. Nets have between 1 and mx pins. A callback's reads are atomic with the change of the net (they happen under the lock of the net); its additions to the cache may be delayed arbitrarily. Refinement is represented by concurrent changeNodePart calls followed by the recomputation of the penalty terms of moved nodes, and by re-initialisation. The Steiner tree gain cache and the dynamic graph data type are not covered."
  },
  {
   "property": "C43",
   "status": "proved",
   "theorems": [
    "Verif.DetC.C43_schedule_independent",
    "Verif.DetC.C43_completes",
    "Verif.DetC.C43_in_bounds",
    "Verif.DetC.C43_weight_limit",
    "Verif.DetC.C43_node_count",
    "Verif.DetC.C43_labels",
    "Verif.DetC.C43_fixed",
    "Verif.DetC.C43_fixed_schedule_dependent",
    "Verif.DetC.C43_zero_weight_count"
   ],
   "note": "Small-step model of the five loops of a sub-round, one shared access per step, sequentially consistent. Weights are integers without overflow; scores are an arbitrary type. Determinism needs nonnegative node weights and no fixed vertices: with fixed vertices it is false (C43_fixed_schedule_dependent), and with weightless nodes the node count can be wrong (C43_zero_weight_count)."
  },
  {
   "property": "C44",
   "status": "proved",
   "theorems": [
    "Verif.DetLP.C44_deterministic",
    "Verif.DetLP.C44_improvement",
    "Verif.DetLP.C44_balanced",
    "Verif.DetLP.C44_fixed",
    "Verif.DetLP.C44_completes",
    "Verif.DetLP.C44_prefix_search",
    "Verif.DetLP.C44_revert_loop",
    "Verif.DetLP.C44_overloaded_grows"
   ],
   "note": "Default partition type. The best move of a node is an arbitrary function of the block ids; permutations are an arbitrary function of the random state that lists every node once (C35). Moves of a sub-round are the concurrent moves of C05-C08 without weight limit; the activation of neighbours is a small-step parallel loop. Balance needs maximum block weights below 2^31 and a balanced input: for overloaded blocks the first step can add further weight (C44_overloaded_grows). Total node weight at most 2^31 - 1."
  },
  {
   "property": "C45",
   "status": "proved",
   "theorems": [
    "Verif.GainComp.C45_gain_exact",
    "Verif.GainComp.C45_best_move",
    "Verif.GainComp.C45_best_move_large_k",
    "Verif.GainComp.C45_best_move_steiner",
    "Verif.GainComp.C45_deterministic",
    "Verif.GainComp.C45_det_lp",
    "Verif.GainComp.C45_large_k_history"
   ],
   "note": "Hypergraph versions (not the graph versions). Gains are integers without overflow. Optimality over all blocks when not rebalancing needs nonnegative edge weights. The Steiner tree metric uses an arbitrary distance function of sets of blocks; its optimality ranges over the blocks of incident hyperedges or, if requested, all blocks. History independence holds for the default partition type; it fails for LARGE_K (C45_large_k_history), which the deterministic presets do not use."
  },
  {
   "property": "C46",
   "status": "proved",
   "theorems": [
    "Verif.Prep.C46_reduced",
    "Verif.Prep.C46_restored",
    "Verif.Prep.C46_objective",
    "Verif.Prep.C46_packing",
    "Verif.Prep.C46_balance",
    "Verif.Prep.C46_balance_unit",
    "Verif.Prep.C46_packing_not_optimal",
    "Verif.Prep.C46_removed_counter_not_reset"
   ],
   "note": "Static hypergraph and partitioned hypergraph of the default and LARGE_K presets (graphs have no such hyperedges). The partition of the reduced hypergraph is reached by an arbitrary history of build/assign/move operations (C01-C08); the parallel loops over pins access different nodes and are executed in an arbitrary order. The greedy placement can miss a balanced one (C46_packing_not_optimal)."
  },
  {
   "property": "C47",
   "status": "proved",
   "theorems": [
    "Verif.Pool.C47_best_local",
    "Verif.Pool.C47_best",
    "Verif.Pool.C47_deterministic",
    "Verif.Pool.C47_population",
    "Verif.Pool.C47_population_race",
    "Verif.Pool.C47_infeasible_ties"
   ],
   "note": "A run is given by the result and the partition it commits; imbalances are elements of a linear order (no NaN). Reading the front of the heap is one step (torn reads are not modelled). Determinism fails for infeasible partitions with equal imbalance and different objectives (C47_infeasible_ties) and, if the population is refined, because of the unprotected comparison (C47_population_race)."
  },
  {
   "property": "C48",
   "status": "proved",
   "theorems": [
    "Verif.Flow.C48_result",
    "Verif.Flow.C48_result_sparse",
    "Verif.Flow.C48_one_search",
    "Verif.Flow.C48_not_stuck",
    "Verif.Flow.C48_gain_cache"
   ],
   "note": "The construction of the flow problem and the flow computation only read the partition and are not modelled: a search returns an arbitrary sequence in which every node occurs at most once. Moves are executed atomic operation by atomic operation. Objectives cut, km1, soed; total node weight at most 2^31 - 1; sequential consistency."
  },
  {
   "property": "C49",
   "status": "proved",
   "theorems": [
    "Verif.Flow.C49_complete",
    "Verif.Flow.C49_reverted_witness"
   ],
   "note": "Membership of one block is read per step. With a sequence that is taken back the statement is false (C49_reverted_witness): a search that reads while another one has transiently removed a block from the hyperedge loses the pair."
  },
  {
   "property": "C50",
   "status": "proved",
   "theorems": [
    "Verif.C50_rejects_iff",
    "Verif.C50_stores",
    "Verif.C50_deterministic",
    "Verif.C50_neighbours_deterministic",
    "Verif.C50_witness_stable_order"
   ],
   "note": "Static graphs (default, quality, deterministic, large k presets). Node weights nonnegative. With parallel edges the order of the copies depends on the schedule, although the comment of sort_incident_edges claims independence (C50_witness_stable_order)."
  },
  {
   "property": "C51",
   "status": "proved",
   "theorems": [
    "Verif.C51_quotient",
    "Verif.C51_communities",
    "Verif.C51_deterministic",
    "Verif.C51_hierarchy",
    "Verif.C51_witness_zero_weight"
   ],
   "note": "Edge weights positive: an edge of weight zero, which the construction accepts, makes contraction drop other edges (C51_witness_zero_weight). Weights are integers without overflow. An iteration of a parallel loop is one step; iterations write disjoint memory apart from the atomic counters. Fixed vertices: C29."
  },
  {
   "property": "C52",
   "status": "proved",
   "theorems": [
    "Verif.DFlow.C52_round",
    "Verif.DFlow.C52_round_sparse",
    "Verif.DFlow.C52_first_round",
    "Verif.DFlow.C52_next_round",
    "Verif.DFlow.C52_complete",
    "Verif.DFlow.C52_complete_sparse",
    "Verif.DFlow.C52_not_stuck"
   ],
   "note": "The computation of the moves (region growing, maximum flow) is a parameter that returns moves between the two blocks, each node at most once; objectives cut, km1, soed (the Steiner tree variant applies moves sequentially and is not modelled). std::sort is insertion sort with the same strict order."
  },
  {
   "property": "C53",
   "status": "proved",
   "theorems": [
    "Verif.DFlow.C53_result",
    "Verif.DFlow.C53_result_sparse",
    "Verif.DFlow.C53_matching",
    "Verif.DFlow.C53_never_worse",
    "Verif.DFlow.C53_balanced"
   ],
   "note": "changeNodePart is executed atomic operation by atomic operation, tasks interleave arbitrarily (sequential consistency). That moves of a pair are improving and balanced is an assumption on the flow computation."
  },
  {
   "property": "C54",
   "status": "partial",
   "theorems": [
    "Verif.DFlow.C54_determinism_partial",
    "Verif.DFlow.C54_determinism_sparse_partial",
    "Verif.DFlow.C54_small_k",
    "Verif.DFlow.C54_first_round",
    "Verif.DFlow.C54_lost_flag_witness"
   ],
   "note": "Proved for all schedules under the condition that no write to the packed vector of flags gets lost; without it for k <= 3 and for the first round of any k. The full statement is false of the code: C54_lost_flag_witness is a run in which concurrent writes to std::vector<bool> lose a flag and the final partition differs."
  },
  {
   "property": "C55",
   "status": "proved",
   "theorems": [
    "Verif.FNet.C55_exact",
    "Verif.FNet.C55_exact_parallel"
   ],
   "note": "Pin counts, connectivity, blocks and block weights are the functions of the specification (C01-C04: the data structures return them). Integers without overflow. The concurrent search for identical nets is one step per hyperedge that may find any identical net added before, or none."
  },
  {
   "property": "C56",
   "status": "proved",
   "theorems": [
    "Verif.FNet.C56_region"
   ],
   "note": "The weight limits, computed with floating point numbers in the code, are arbitrary integers. determineDistanceFromCut is not modelled."
  },
  {
   "property": "C57",
   "status": "proved",
   "theorems": [
    "Verif.FNet.C57_large",
    "Verif.FNet.C57_deterministic",
    "Verif.FNet.C57_deterministic_large",
    "Verif.FNet.C57_graph_schedule_witness"
   ],
   "note": "Hypergraphs. For graphs the code uses the non-deterministic construction also in deterministic mode; C57_graph_schedule_witness: its network depends on the schedule."
  },
  {
   "property": "C58",
   "status": "proved",
   "theorems": [
    "Verif.FNet.C58_refine",
    "Verif.FNet.C58_deterministic",
    "Verif.FNet.C58_flow_refinement"
   ],
   "note": "The maximum flow algorithm (external library WHFC) is a function that satisfies the contract Sound. The deterministic flow refinement is composed for the default partition type with constructDefaultDeterministic (by C57 the other construction gives the same network)."
  },
  {
   "property": "C59",
   "status": "proved",
   "theorems": [
    "Verif.TwoWay.C59_refine",
    "Verif.TwoWay.C59_choice",
    "Verif.TwoWay.C59_continues",
    "Verif.TwoWay.C59_rounds",
    "Verif.TwoWay.C59_soed_witness"
   ],
   "note": "Hypergraphs (not graphs). The external priority queue is modelled by its contract, the stopping rule is arbitrary, the imbalance is an arbitrary function of the block weights into a linear order. C59_soed_witness: with the objective soed the quality handed to the refiner is not the cut and the reported quality is wrong."
  },
  {
   "property": "C60",
   "status": "proved",
   "theorems": [
    "Verif.OneMap.C60_swap_gain",
    "Verif.OneMap.C60_local_search"
   ],
   "note": "Communication hypergraphs (not graphs). The distance of a block set is an arbitrary nonnegative function (C25, C39). Integers without overflow. The marks of hyperedges are initially cleared, as in the code."
  },
  {
   "property": "C61",
   "status": "proved",
   "theorems": [
    "Verif.OneMap.C61_greedy_mapping",
    "Verif.OneMap.C61_greedy_choice",
    "Verif.OneMap.C61_runs",
    "Verif.OneMap.C61_unassigned_witness",
    "Verif.OneMap.C61_unbalanced_witness",
    "Verif.OneMap.C61_no_processor_witness"
   ],
   "note": "Usable seed node: SeedOk. Without this condition the claim is false: C61_unassigned_witness (nodes without processor, selected as best mapping), C61_no_processor_witness. With individual weights the chosen processor may be one on which the node does not fit although another one is free (C61_unbalanced_witness)."
  },
  {
   "property": "C62",
   "status": "proved",
   "theorems": [
    "Verif.OneMap.C62_initial_mapping",
    "Verif.OneMap.C62_best_mapping",
    "Verif.OneMap.C62_schedule_witness"
   ],
   "note": "Static hypergraphs, no empty block, k at most the number of nodes. Tasks of the parallel loop work on their own partition; only the critical section is ordered. With an infeasible given mapping the result depends on the schedule (C62_schedule_witness)."
  },
  {
   "property": "C63",
   "status": "proved",
   "theorems": [
    "Verif.DReb.C63_round",
    "Verif.DReb.C63_deterministic",
    "Verif.DReb.C63_exact",
    "Verif.DReb.C63_end",
    "Verif.DReb.C63_completes"
   ],
   "note": "Hypergraphs with the default (dense) data structures, objectives cut, km1, soed. Floating point parameters (priority, dead zone, heavy vertex factor) are arbitrary functions. With more than 64 blocks in the sparse data structures the tie-breaking depends on the history (C45_large_k_history)."
  },
  {
   "property": "C64",
   "status": "proved",
   "theorems": [
    "Verif.Jet.C64_result",
    "Verif.Jet.C64_not_worse",
    "Verif.Jet.C64_deterministic",
    "Verif.Jet.C64_terminates",
    "Verif.Jet.C64_completes"
   ],
   "note": "Hypergraphs with the default (dense) data structures, objectives cut, km1, soed, deterministic rebalancer. Floating point computations are arbitrary functions. The metrics passed in are correct (the caller's invariant). Not modelled: graphs, Steiner tree, gain cache."
  },
  {
   "property": "C65",
   "status": "proved",
   "theorems": [
    "Verif.Jet.C65_iteration",
    "Verif.Jet.C65_afterburner",
    "Verif.Jet.C65_soed_two_pins"
   ],
   "note": "As C64. For soed without hyperedges of size two; C65_soed_two_pins shows that the afterburner's value is wrong for them."
  },
  {
   "property": "C66",
   "status": "proved",
   "theorems": [
    "Verif.JetG.C66_afterburner",
    "Verif.JetG.C66_gain_delta",
    "Verif.JetG.C66_quality"
   ],
   "note": "Static graphs without self loops, objective cut. The proposals are arbitrary (any function with targets different from the current blocks); their choice is covered for hypergraphs by C65."
  },
  {
   "property": "C67",
   "status": "proved",
   "theorems": [
    "Verif.FlatIP.C67_random",
    "Verif.FlatIP.C67_random_terminates",
    "Verif.FlatIP.C67_bfs",
    "Verif.FlatIP.C67_bfs_terminates",
    "Verif.FlatIP.C67_complete",
    "Verif.FlatIP.C67_unit_weights_balanced"
   ],
   "note": "The start nodes (PseudoPeripheralStartNodes) and the random numbers are arbitrary inputs; weights are integers without overflow. The commit of the result (refinement, best partition) is not part of it."
  },
  {
   "property": "C68",
   "status": "proved",
   "theorems": [
    "Verif.LPIP.C68_move"
   ],
   "note": "Pin counts and connectivity sets are those of the partial assignment (C01, C02). The balance condition is any predicate. Seed placement and the treatment of isolated nodes are not modelled."
  }
 ]
}