import Verif.Lemmas.SG8
/-!
# C50: construction of graphs stores exactly the given graph

`n`, `m`, `edges`, `ew`, `nw` are the arguments of `mt_kahypar_create_graph`: edge `e` joins `edges[2e]` and
`edges[2e + 1]`.  `s` is an arbitrary legal schedule of the parallel construction (the two ends of the edges are
written in any interleaving, the sort is any unstable sort), `edge0` the uninitialised memory.
-/
namespace Verif
open SG

/-- the inputs the interface has to reject -/
inductive BadGraph (n m : Nat) (edges : Nat → Nat) (nw : Option (Nat → Int)) : Prop
  /-- the number of nodes does not fit the id type, or twice the number of edges does not -/
  | size : n > 4294967295 ∨ 2 * m > 4294967295 → BadGraph n m edges nw
  /-- an edge joins a node with itself -/
  | loop (e : Nat) : e < m → edges (2 * e) = edges (2 * e + 1) → BadGraph n m edges nw
  /-- an end of an edge is not a node -/
  | endpoint (i : Nat) : i < 2 * m → n ≤ edges i → BadGraph n m edges nw
  /-- the total node weight exceeds the largest 32-bit weight -/
  | weight : ((List.range n).map (weightsOf nw)).sum > 2147483647 → BadGraph n m edges nw

section
variable {n m : Nat} {edges : Nat → Nat} {ew nw : Option (Nat → Int)} {s : SG.FSched n} {edge0 : Nat → GEdge}

/-- The call is rejected exactly on the bad inputs, whatever the schedule. -/
theorem C50_rejects_iff (hw : ∀ v < n, 0 ≤ weightsOf nw v) :
    createGraph n m edges ew nw s edge0 = none ↔ BadGraph n m edges nw := by
  have hk : kInvalid = 4294967295 := rfl
  have htw := C17_total_weight hw s.reduce
  have split2 : ∀ i < 2 * m, ∃ e < m, i = 2 * e ∨ i = 2 * e + 1 := fun i hi => ⟨i / 2, by omega, by omega⟩
  unfold createGraph
  split
  · rename_i h0
    refine ⟨fun _ => ?_, fun _ => rfl⟩
    simp only [List.any_eq_true, List.mem_range, Bool.or_eq_true, decide_eq_true_eq] at h0
    obtain ⟨e, he, h0⟩ := h0
    by_cases hn : n > 4294967295
    · exact .size (Or.inl hn)
    · rcases h0 with h0 | h0
      · exact .endpoint (2 * e) (by omega) (by omega)
      · exact .endpoint (2 * e + 1) (by omega) (by omega)
  rename_i h0
  simp only [List.any_eq_true, List.mem_range, Bool.or_eq_true, decide_eq_true_eq, not_exists, not_and, not_or] at h0
  by_cases h1 : n > kInvalid ∨ m > kInvalid
  · rw [if_pos h1]
    exact ⟨fun _ => .size (by omega), fun _ => rfl⟩
  rw [if_neg h1]
  unfold SG.construct
  by_cases h2 : m > kInvalid / 2
  · rw [if_pos h2]
    exact ⟨fun _ => .size (by omega), fun _ => rfl⟩
  rw [if_neg h2, if_neg (by simp)]
  split
  · rename_i h3
    refine ⟨fun _ => ?_, fun _ => rfl⟩
    simp only [List.any_eq_true, List.mem_range, Bool.or_eq_true, decide_eq_true_eq] at h3
    obtain ⟨e, he, (h3 | h3) | h3⟩ := h3
    · exact .loop e he h3
    · exact .endpoint (2 * e) (by omega) h3
    · exact .endpoint (2 * e + 1) (by omega) h3
  rename_i h3
  simp only [List.any_eq_true, List.mem_range, Bool.or_eq_true, decide_eq_true_eq, not_exists, not_and, not_or] at h3
  simp only [weightsOf_eq]
  by_cases h4 : (s.reduce.eval (weightsOf nw)).2 = true
  · rw [if_pos h4]
    exact ⟨fun _ => .weight (htw.1.1 h4), fun _ => rfl⟩
  rw [if_neg h4]
  refine ⟨fun h => by simp at h, fun hb => ?_⟩
  exfalso
  cases hb with
  | size h => omega
  | loop e he h => exact (h3 e he).1.1 h
  | endpoint i hi h =>
    obtain ⟨e, he, rfl | rfl⟩ := split2 i hi
    · have := h3 e he; omega
    · have := h3 e he; omega
  | weight h => exact h4 (htw.1.2 h)

/-- What the constructed graph stores: the given nodes and node weights, their total, and an adjacency array in which every
given edge appears exactly once at each of its two end nodes, with the other end node, its weight and its number
(`SGraph.Adj`); the incident edges of every node are sorted by target and their number is the number of given edges
at that node. -/
theorem C50_stores (hw : ∀ v < n, 0 ≤ weightsOf nw v) (hs : s.Legal m) {G : SGraph}
    (h : createGraph n m edges ew nw s edge0 = some G) :
    G.n = n ∧ G.m = 2 * m ∧ G.nodes = List.range n ∧ (∀ v < n, G.nw v = weightsOf nw v) ∧
    G.totalWeight = ((List.range n).map (weightsOf nw)).sum ∧
    G.Adj (fun e => (edges (2 * e), edges (2 * e + 1))) (weightsOf ew) ∧
    (∀ u < n, ((G.inc u).map (fun e => (G.edge e).tgt)).Pairwise (· ≤ ·)) ∧
    (∀ u < n, G.degree u = ((List.range m).filter (fun e => edges (2 * e) = u ∨ edges (2 * e + 1) = u)).length) := by
  have hk : kInvalid = 4294967295 := rfl
  have htw := C17_total_weight hw s.reduce
  unfold createGraph at h
  split at h
  · cases h
  by_cases h1 : n > kInvalid ∨ m > kInvalid
  · rw [if_pos h1] at h; cases h
  rw [if_neg h1] at h
  obtain ⟨_, _, hB, hf, ht⟩ := construct_built hs h
  refine ⟨hB.n_eq, hB.m_eq, ?_, fun v _ => by rw [hB.nw], by rw [ht]; exact htw.2 hf, hB.adj (by omega), ?_, ?_⟩
  · unfold SGraph.nodes
    rw [hB.n_eq]
    exact List.filter_eq_self.2 (fun a ha => hB.enabled a (List.mem_range.1 ha))
  · intro u hu
    have := hB.sorted rfl u hu
    rw [List.pairwise_map] at this ⊢
    exact this
  · intro u hu
    have := (hB.seg u hu).length_eq
    simp only [segOf, List.length_map, SGraph.inc, List.length_range] at this
    exact this

/-- If no two given edges join the same two nodes, the graph does not depend on the schedule. -/
theorem C50_deterministic {s' : SG.FSched n} {edge0' : Nat → GEdge} (hw : ∀ v < n, 0 ≤ weightsOf nw v)
    (hs : s.Legal m) (hs' : s'.Legal m)
    (hsimple : ∀ e < m, ∀ f < m, (edges (2 * e) = edges (2 * f) ∧ edges (2 * e + 1) = edges (2 * f + 1)) ∨
      (edges (2 * e) = edges (2 * f + 1) ∧ edges (2 * e + 1) = edges (2 * f)) → e = f)
    {G G' : SGraph} (h : createGraph n m edges ew nw s edge0 = some G)
    (h' : createGraph n m edges ew nw s' edge0' = some G') :
    G.n = G'.n ∧ G.m = G'.m ∧ G.totalWeight = G'.totalWeight ∧ G.nw = G'.nw ∧ G.first = G'.first ∧
    ∀ u < n, (G.inc u).map G.edge = (G'.inc u).map G'.edge := by
  have htw := C17_total_weight hw s.reduce
  have htw' := C17_total_weight hw s'.reduce
  unfold createGraph at h h'
  split at h
  · cases h
  rename_i h0
  rw [if_neg h0] at h'
  by_cases h1 : n > kInvalid ∨ m > kInvalid
  · rw [if_pos h1] at h; cases h
  rw [if_neg h1] at h h'
  obtain ⟨_, _, hB, hf, ht⟩ := construct_built hs h
  obtain ⟨_, _, hB', hf', ht'⟩ := construct_built hs' h'
  refine ⟨by rw [hB.n_eq, hB'.n_eq], by rw [hB.m_eq, hB'.m_eq], by rw [ht, ht', htw.2 hf, htw'.2 hf'],
    by rw [hB.nw, hB'.nw], by rw [hB.first, hB'.first], ?_⟩
  intro u hu
  refine sorted_unique (key := GEdge.tgt) ((hB.seg u hu).trans (hB'.seg u hu).symm) ?_ (hB.sorted rfl u hu)
    (hB'.sorted rfl u hu)
  rw [((hB'.seg u hu).map GEdge.tgt).nodup_iff]
  unfold segOf
  rw [List.map_map]
  refine List.Nodup.map_on ?_ (List.nodup_range.filter _)
  intro e he f hf heq
  simp only [List.mem_filter, List.mem_range, decide_eq_true_eq, Function.comp_apply] at he hf heq
  refine hsimple e he.1 f hf.1 ?_
  have le := hB.loopfree e he.1
  have lf := hB.loopfree f hf.1
  simp only at le lf
  split_ifs at heq <;> omega

/-- Whatever the given edges, the sorted lists of neighbours do not depend on the schedule. -/
theorem C50_neighbours_deterministic {s' : SG.FSched n} {edge0' : Nat → GEdge}
    (hs : s.Legal m) (hs' : s'.Legal m) {G G' : SGraph} (h : createGraph n m edges ew nw s edge0 = some G)
    (h' : createGraph n m edges ew nw s' edge0' = some G') :
    G.first = G'.first ∧ ∀ u < n, (G.inc u).map (fun e => (G.edge e).tgt) = (G'.inc u).map (fun e => (G'.edge e).tgt) := by
  unfold createGraph at h h'
  split at h
  · cases h
  rename_i h0
  rw [if_neg h0] at h'
  by_cases h1 : n > kInvalid ∨ m > kInvalid
  · rw [if_pos h1] at h; cases h
  rw [if_neg h1] at h h'
  obtain ⟨_, _, hB, _, _⟩ := construct_built hs h
  obtain ⟨_, _, hB', _, _⟩ := construct_built hs' h'
  refine ⟨by rw [hB.first, hB'.first], fun u hu => ?_⟩
  have := sorted_targets ((hB.seg u hu).trans (hB'.seg u hu).symm) (hB.sorted rfl u hu) (hB'.sorted rfl u hu)
  simpa [List.map_map, Function.comp_def] using this

end

/-! ### Concrete cases -/

/-- insertion sort of positions, ties broken by position -/
def C50_srt (key : Nat → Nat) (len : Nat) : List Nat :=
  (List.range len).insertionSort (fun a b => key a ≤ key b)

theorem C50_srt_ok (key : Nat → Nat) (len : Nat) :
    (C50_srt key len).Perm (List.range len) ∧ (C50_srt key len).Pairwise (fun a b => key a ≤ key b) := by
  haveI : Std.Total (fun a b : Nat => key a ≤ key b) := ⟨fun a b => Nat.le_total _ _⟩
  haveI : IsTrans Nat (fun a b : Nat => key a ≤ key b) := ⟨fun a b c => Nat.le_trans⟩
  exact ⟨List.perm_insertionSort _ _, List.pairwise_insertionSort _ _⟩

/-- a schedule with one thread writing the ends in the given order -/
def C50_sched (n : Nat) (order : List (Nat × Bool)) : SG.FSched n :=
  { threads := 2, thread := fun e => e % 2, order := order, srt := C50_srt, reduce := .extend (.start 0) n (Nat.zero_le _) }

theorem C50_sched_legal {n m : Nat} {order : List (Nat × Bool)}
    (h : order.Perm ((List.range m).flatMap (fun e => [(e, false), (e, true)]))) : (C50_sched n order).Legal m :=
  ⟨fun e _ => Nat.mod_lt _ (by decide), h, C50_srt_ok⟩

/-- Non-vacuity: a graph with four nodes and four edges, written in an interleaved order, is accepted. -/
theorem C50_nonvacuous : let edges := fun i => [2, 0, 0, 1, 3, 2, 1, 2].getD i 0
    let order := [(3, true), (0, false), (2, true), (0, true), (1, true), (1, false), (2, false), (3, false)]
    (C50_sched 4 order).Legal 4 ∧
    (∃ G, createGraph 4 4 edges (some (fun e => (e : Int) + 1)) none (C50_sched 4 order) (fun _ => default) = some G ∧
      (G.inc 2).map G.edge = [⟨2, 0, 1, 0⟩, ⟨2, 1, 4, 3⟩, ⟨2, 3, 3, 2⟩]) ∧
    (∀ e < 4, ∀ f < 4, (edges (2 * e) = edges (2 * f) ∧ edges (2 * e + 1) = edges (2 * f + 1)) ∨
      (edges (2 * e) = edges (2 * f + 1) ∧ edges (2 * e + 1) = edges (2 * f)) → e = f) := by
  refine ⟨C50_sched_legal (by decide), ⟨_, rfl, by decide +kernel⟩, by decide⟩

/-- static_graph_factory.cpp:45 promises that the sorted order is "independent of scheduling": with parallel edges
(here two edges between nodes 0 and 1 of different weights) it is not. -/
theorem C50_witness_stable_order : let edges := fun i => [0, 1, 0, 1].getD i 0
    let order := [(0, false), (0, true), (1, false), (1, true)]
    let order' := [(1, false), (1, true), (0, false), (0, true)]
    (C50_sched 2 order).Legal 2 ∧ (C50_sched 2 order').Legal 2 ∧
    ∃ G G', createGraph 2 2 edges (some (fun e => (e : Int) + 1)) none (C50_sched 2 order) (fun _ => default) = some G ∧
      createGraph 2 2 edges (some (fun e => (e : Int) + 1)) none (C50_sched 2 order') (fun _ => default) = some G' ∧
      (G.inc 0).map G.edge = [⟨0, 1, 1, 0⟩, ⟨0, 1, 2, 1⟩] ∧ (G'.inc 0).map G'.edge = [⟨0, 1, 2, 1⟩, ⟨0, 1, 1, 0⟩] := by
  refine ⟨C50_sched_legal (by decide), C50_sched_legal (by decide), _, _, rfl, rfl, by decide +kernel, by decide +kernel⟩

end Verif
