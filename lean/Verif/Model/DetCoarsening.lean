import Verif.Model.Parallel
import Verif.Model.FixedVertices
/-!
# Model: a clustering pass of the deterministic coarsener

Source: `mt-kahypar/partition/coarsening/deterministic_multilevel_coarsener.cpp` and
`policies/rating_fixed_vertex_acceptance_policy.h`.

Every access to an array that is written in the same parallel loop is one step; arrays that a loop does not write are
read as values. Simplifications: weights are integers (no 32-bit overflow); scores are an arbitrary type with the
operations the code uses (so every floating point arithmetic is covered); the tie-breaking generator seeded with the
node, the bloom filter mask, and the bound on fixed vertex weights (a floating point expression of the total fixed
weight) are arbitrary functions; a rating map is a list in insertion order (both map types iterate over their dense
array in this order, sparse_map.h:92-106, 328-342; C31). The groups of nodes of the sub-rounds are parameters
(`random_grouping` is deterministic and lists every node once, C35).
-/
namespace Verif
namespace DetC
open SMap (wr)

/-- the inputs of a pass: hypergraph, configuration, scores -/
structure Cfg (α : Type) where
  n : Nat
  /-- `nodeWeight` -/
  nw : Nat → Int
  /-- `nodeIsEnabled` -/
  en : Nat → Bool
  /-- `communityID` -/
  comm : Nat → Nat
  /-- `incidentEdges` -/
  inc : Nat → List Nat
  /-- `pins` -/
  pins : Nat → List Nat
  isGraph : Bool
  /-- `edgeTarget` of a graph -/
  etgt : Nat → Nat
  /-- `ignore_hyperedge_size_threshold` -/
  ignore : Nat
  /-- `target & bloom_filter_mask` -/
  bloom : Nat → Nat
  /-- score of a net: weight, divided by its size for hypergraphs -/
  score : Nat → α
  zero : α
  add : α → α → α
  /-- `a >= b` -/
  ge : α → α → Bool
  /-- `a > b` -/
  gt : α → α → Bool
  /-- position chosen among `size` equally good targets for node `u` -/
  tie : Nat → Nat → Nat
  /-- `max_allowed_node_weight` -/
  maxw : Int
  /-- `hg.hasFixedVertices()` -/
  hasFixed : Bool
  /-- `(1.0 + epsilon) * ceil(total / k)` -/
  maxFixed : Int → Int
  /-- `max_part_weights` -/
  mpw : Nat → Int
  /-- `det_resolve_swaps` -/
  swaps : Bool
  /-- `currentLevelContractionLimit()` -/
  limit : Nat

/-- the shared state of a pass (deterministic_multilevel_coarsener.h:154-165) -/
structure DC where
  /-- `clusters` -/
  cl : Nat → Nat
  /-- `cluster_weight` -/
  cw : Nat → Int
  /-- `opportunistic_cluster_weight` -/
  opp : Nat → Int
  /-- `propositions` -/
  prop : Nat → Nat
  fv : FVS
  /-- sum of `num_contracted_nodes` over the threads -/
  cnt : Nat
  /-- `cluster_weights_to_fix` -/
  fix : List Nat
  /-- `nodes_in_too_heavy_clusters` -/
  heavy : List Nat

variable {α : Type}

/-! ### Rating -/

/-- `tmp_ratings[t] += x` -/
def addRating (c : Cfg α) (t : Nat) (x : α) : List (Nat × α) → List (Nat × α)
  | [] => [(t, c.add c.zero x)]
  | (t', y) :: m => if t' = t then (t', c.add y x) :: m else (t', y) :: addRating c t x m

/-- the loop over the pins of a net with the bloom filter (236-243) -/
def ratePins (c : Cfg α) (cl : Nat → Nat) (x : α) : List Nat → List Nat → List (Nat × α) → List (Nat × α)
  | [], _, m => m
  | v :: vs, bl, m =>
    if c.bloom (cl v) ∈ bl then ratePins c cl x vs bl m
    else ratePins c cl x vs (c.bloom (cl v) :: bl) (addRating c (cl v) x m)

/-- the contribution of one net (224-247) -/
def rateEdge (c : Cfg α) (cl : Nat → Nat) (m : List (Nat × α)) (e : Nat) : List (Nat × α) :=
  if c.isGraph then addRating c (cl (c.etgt e)) (c.score e) m
  else if (c.pins e).length < c.ignore then ratePins c cl (c.score e) (c.pins e) [] m else m

/-- `FixedVertexAcceptancePolicy::acceptContraction` (rating_fixed_vertex_acceptance_policy.h:44-97): may `v` be
contracted onto `u`? -/
def accept (c : Cfg α) (fv : FVS) (u v : Nat) : Bool :=
  (fv.isFixed u || !fv.isFixed v) &&
  (!(fv.isFixed u && fv.isFixed v) || decide ((fv.data u).block = (fv.data v).block)) &&
  (match (fv.data u).block, (fv.data v).block with
    | some b, none => decide (fv.bw b + c.nw v ≤ min (c.maxFixed fv.total) (c.mpw b))
    | none, some b => decide (c.nw u + fv.bw b ≤ min (c.maxFixed fv.total) (c.mpw b))
    | _, _ => true)

/-- the search for the highest rated feasible clusters (249-272): best score and the targets that have it -/
def bestTargets (c : Cfg α) (cw : Nat → Int) (fv : FVS) (u : Nat) : List (Nat × α) → α × List Nat → α × List Nat
  | [], b => b
  | (t, x) :: m, b =>
    bestTargets c cw fv u m
      (if c.ge x b.1 && decide (t ≠ u) && decide (c.comm t = c.comm u) && decide (cw t + c.nw u ≤ c.maxw) && (!c.hasFixed || accept c fv t u)
       then if c.gt x b.1 then (x, [t]) else (b.1, b.2 ++ [t])
       else b)

/-- `calculatePreferredTargetCluster` (216-292): the target, `u` if there is none -/
def target (c : Cfg α) (cl : Nat → Nat) (cw : Nat → Int) (fv : FVS) (u : Nat) : Nat :=
  match (bestTargets c cw fv u ((c.inc u).foldl (rateEdge c cl) []) (c.zero, [])).2 with
  | [] => u
  | [t] => t
  | l => l.getD (c.tie u l.length) u

/-! ### First loop: every node of the range finds a cluster it wants to join (131-142) -/

inductive Pc1
  | start
  /-- about to write `propositions[u]` (289) -/
  | put (t : Nat)
  /-- about to add to `opportunistic_cluster_weight[t]` (290) -/
  | add (t : Nat)
  | fin
  deriving DecidableEq

def next1 (c : Cfg α) (u : Nat) : Pc1 → DC → Option (Pc1 × DC)
  | .start, s =>
    if s.cw u = c.nw u ∧ c.en u = true then
      (if target c s.cl s.cw s.fv u ≠ u then some (.put (target c s.cl s.cw s.fv u), s) else some (.fin, s))
    else some (.fin, s)
  | .put t, s => some (.add t, { s with prop := wr s.prop u t })
  | .add t, s => some (.fin, { s with opp := wr s.opp t (s.opp t + c.nw u) })
  | .fin, _ => none

/-! ### Second loop: `handleNodeSwaps` (342-355) -/

inductive Pc2
  /-- about to read `propositions[u]` -/
  | start
  /-- about to read `propositions[v]` -/
  | test (v : Nat)
  /-- about to read `opportunistic_cluster_weight[u]` -/
  | rd1 (v : Nat)
  /-- about to read `opportunistic_cluster_weight[v]` -/
  | rd2 (v : Nat) (x : Int)
  /-- about to write `propositions[u]` -/
  | put1 (v t : Nat)
  /-- about to write `propositions[v]` -/
  | put2 (v t : Nat)
  /-- about to read `opportunistic_cluster_weight[source]` -/
  | rd3 (v t : Nat)
  /-- about to write `opportunistic_cluster_weight[source]` -/
  | put3 (v t : Nat) (x : Int)
  | fin
  deriving DecidableEq

def next2 (c : Cfg α) (u : Nat) : Pc2 → DC → Option (Pc2 × DC)
  | .start, s => if u < s.prop u then some (.test (s.prop u), s) else some (.fin, s)
  | .test v, s => if u = s.prop v then some (.rd1 v, s) else some (.fin, s)
  | .rd1 v, s => some (.rd2 v (s.opp u), s)
  | .rd2 v x, s => some (.put1 v (if x > s.opp v then u else v), s)
  | .put1 v t, s => some (.put2 v t, { s with prop := wr s.prop u t })
  | .put2 v t, s => some (.rd3 v t, { s with prop := wr s.prop v t })
  | .rd3 v t, s => some (.put3 v t (s.opp (if t = u then v else u)), s)
  | .put3 v t x, s => some (.fin, { s with opp := wr s.opp (if t = u then v else u) (x - c.nw t) })
  | .fin, _ => none

/-! ### `FixedVertexSupport::contractWithoutChains(t, u)` (fixed_vertex_support.cpp:45-116 with `ignore_v`) -/

inductive FPc
  | start
  /-- the block weight is increased, about to increase the total weight -/
  | commit (b : Nat)
  /-- the block weight is increased, about to decrease it again -/
  | undo (b : Nat)
  | fin
  deriving DecidableEq

/-- One step. The additions to the block weights are single steps; the two cases that only change data of `t`
under its lock are one step. -/
def nextF (c : Cfg α) (t u : Nat) : FPc → FVS → Option (FPc × FVS)
  | .start, f => match (f.data t).block, (f.data u).block with
    | none, none => some (.fin, f)
    | some b, none => some (if f.bw b + c.nw u ≤ f.maxw b then .commit b else .undo b, { f with bw := f.addBw b (c.nw u) })
    | _, _ => some (.fin, (f.contractImpl c.nw t u true).2)
  | .commit _, f => some (.fin, { f with total := f.total + c.nw u })
  | .undo b, f => some (.fin, { f with bw := f.addBw b (-c.nw u) })
  | .fin, _ => none

/-! ### Third loop: approve all requests for a cluster if they fit (148-176) -/

inductive Pc3
  | start
  /-- about to read `opportunistic_cluster_weight[t]` -/
  | rd (t : Nat)
  /-- about to read `opportunistic_cluster_weight[u]`, the request is granted -/
  | own (t : Nat)
  /-- inside `contractWithoutChains` -/
  | fixed (t : Nat) (p : FPc)
  /-- about to write `clusters[u]` -/
  | put (t : Nat)
  /-- about to read `opportunistic_cluster_weight[t]` again -/
  | rd2 (t : Nat)
  /-- about to write `cluster_weight[t]` -/
  | put2 (t : Nat) (x : Int)
  /-- about to read `opportunistic_cluster_weight[u]`, the cluster is too heavy -/
  | own2
  /-- about to append to `nodes_in_too_heavy_clusters` -/
  | push
  | fin
  deriving DecidableEq

def next3 (c : Cfg α) (u : Nat) : Pc3 → DC → Option (Pc3 × DC)
  | .start, s => if s.prop u ≠ u then some (.rd (s.prop u), s) else some (.fin, s)
  | .rd t, s => if s.opp t ≤ c.maxw then some (.own t, s) else some (.own2, s)
  | .own t, s => some (if c.hasFixed then .fixed t .start else .put t,
      if s.opp u = c.nw u then { s with cnt := s.cnt + 1 } else { s with fix := s.fix ++ [u] })
  | .fixed t p, s => match nextF c t u p s.fv with
    | some (p', f) => some (.fixed t p', { s with fv := f })
    | none => some (.put t, s)
  | .put t, s => some (.rd2 t, { s with cl := wr s.cl u t })
  | .rd2 t, s => some (.put2 t (s.opp t), s)
  | .put2 t x, s => some (.fin, { s with cw := wr s.cw t x })
  | .own2, s => some (.push, if s.opp u ≠ c.nw u then { s with fix := s.fix ++ [u] } else s)
  | .push, s => some (.fin, { s with heavy := s.heavy ++ [u] })
  | .fin, _ => none

/-! ### `approveNodes` (294-340) -/

/-- the comparison of `approveNodes` (301-304): lexicographic order of proposition, weight, id -/
def comp (c : Cfg α) (prop : Nat → Nat) (a b : Nat) : Prop :=
  prop a < prop b ∨ (prop a = prop b ∧ (c.nw a < c.nw b ∨ (c.nw a = c.nw b ∧ a < b)))

inductive Pc4
  | start
  /-- about to read `cluster_weight[t]` -/
  | rd (t : Nat)
  /-- about to look at the node at position `i`; weight of the cluster, number of contracted nodes -/
  | loop (t i : Nat) (w : Int) (k : Nat)
  /-- inside `contractWithoutChains` -/
  | fixed (t i : Nat) (w : Int) (k : Nat) (p : FPc)
  /-- about to write `clusters[v]` -/
  | put (t i : Nat) (w : Int) (k : Nat)
  /-- about to read `opportunistic_cluster_weight[v]` -/
  | own (t i : Nat) (w : Int) (k : Nat)
  /-- about to write `cluster_weight[t]` -/
  | put1 (t : Nat) (w : Int) (k : Nat)
  /-- about to write `opportunistic_cluster_weight[t]` -/
  | put2 (t : Nat) (w : Int) (k : Nat)
  /-- about to add to the thread-local counter -/
  | count (k : Nat)
  | fin
  deriving DecidableEq

/-- The iteration `pos` of the loop over the sorted nodes `hv`; it is stuck if it leaves the array. -/
def next4 (c : Cfg α) (hv : List Nat) (pos : Nat) : Pc4 → DC → Option (Pc4 × DC)
  | .start, s => match hv[pos]? with
    | none => none
    | some v => if pos = 0 ∨ (hv[pos - 1]?).map s.prop ≠ some (s.prop v) then some (.rd (s.prop v), s) else some (.fin, s)
  | .rd t, s => some (.loop t pos (s.cw t) 0, s)
  | .loop t i w k, s => match hv[i]? with
    | none => none
    | some v => if w + c.nw v > c.maxw then some (.put1 t w k, s)
        else if c.hasFixed then some (.fixed t i w k .start, s) else some (.put t i w k, s)
  | .fixed t i w k p, s => match hv[i]? with
    | none => none
    | some v => match nextF c t v p s.fv with
      | some (p', f) => some (.fixed t i w k p', { s with fv := f })
      | none => some (.put t i w k, s)
  | .put t i w k, s => match hv[i]? with
    | none => none
    | some v => some (.own t i (w + c.nw v) k, { s with cl := wr s.cl v t })
  | .own t i w k, s => match hv[i]? with
    | none => none
    | some v => some (.loop t (i + 1) w (if s.opp v = c.nw v then k + 1 else k), s)
  | .put1 t w k, s => some (.put2 t w k, { s with cw := wr s.cw t w })
  | .put2 t w k, s => some (.count k, { s with opp := wr s.opp t w })
  | .count k, s => some (.fin, { s with cnt := s.cnt + k })
  | .fin, _ => none

/-! ### Last loop: weights of clusters that their own node has left (185-196) -/

inductive Pc5
  | start
  /-- about to write `cluster_weight[hn]` -/
  | put1 (h : Nat) (x : Int)
  /-- about to read `opportunistic_cluster_weight[hn]` -/
  | rd2 (h : Nat)
  /-- about to write `opportunistic_cluster_weight[hn]` -/
  | put2 (h : Nat) (x : Int)
  | fin
  deriving DecidableEq

def next5 (c : Cfg α) (fx : List Nat) (i : Nat) : Pc5 → DC → Option (Pc5 × DC)
  | .start, s => match fx[i]? with
    | none => none
    | some h => if s.cl h ≠ h then some (.put1 h (s.cw h), s) else some (.fin, s)
  | .put1 h x, s => some (.rd2 h, { s with cw := wr s.cw h (x - c.nw h) })
  | .rd2 h, s => some (.put2 h (s.opp h), s)
  | .put2 h x, s => some (.fin, { s with opp := wr s.opp h (x - c.nw h) })
  | .fin, _ => none

/-! ### Sub-rounds and the pass -/

/-- `clusterNodesInRange` (122-212) for the nodes `us`. The shared vectors are filled in any order. -/
inductive Round (c : Cfg α) (us : List Nat) (s : DC) : DC → Prop
  | mk (s1 s2 s3 s4 s5 : DC) (hv fx : List Nat)
      (h1 : Par.For (next1 c) us .start .fin s s1)
      (h2 : if c.swaps then Par.For (next2 c) us .start .fin s1 s2 else s2 = s1)
      (h3 : Par.For (next3 c) us .start .fin { s2 with cnt := 0, fix := [], heavy := [] } s3)
      (hp : hv.Perm s3.heavy) (hs : hv.Pairwise (comp c s3.prop))
      (h4 : Par.For (next4 c hv) (List.range hv.length) .start .fin s3 s4)
      (hf : fx.Perm s4.fix)
      (h5 : Par.For (next5 c fx) (List.range fx.length) .start .fin s4 s5) : Round c us s s5

/-- The loop over the sub-rounds of `coarseningPassImpl` (98-109): `num` is `num_nodes`. -/
inductive Rounds (c : Cfg α) : List (List Nat) → Nat × DC → Nat × DC → Prop
  | nil (x : Nat × DC) : Rounds c [] x x
  /-- the contraction limit is reached -/
  | stop (us : List Nat) (L : List (List Nat)) (num : Nat) (s : DC) (h : num ≤ c.limit) : Rounds c (us :: L) (num, s) (num, s)
  | round (us : List Nat) (L : List (List Nat)) (num : Nat) (s s' : DC) (x : Nat × DC) (h : c.limit < num)
      (hr : Round c us s s') (ht : Rounds c L (num - s'.cnt, s') x) : Rounds c (us :: L) (num, s) x

/-- the state in which a pass starts (87-96) -/
def start (c : Cfg α) (fv : FVS) : DC :=
  ⟨fun u => u, c.nw, c.nw, fun u => u, { fv with maxw := c.mpw }, 0, [], []⟩

/-- A clustering pass (77-119) with groups `L` of nodes for the sub-rounds: resulting `clusters` and `num_nodes`. -/
def Pass (c : Cfg α) (fv : FVS) (L : List (List Nat)) (clusters : Nat → Nat) (num : Nat) : Prop :=
  ∃ s, Rounds c L (c.n, start c fv) (num, s) ∧ s.cl = clusters

end DetC
end Verif
