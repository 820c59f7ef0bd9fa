import Verif.Model.Factory
import Verif.Model.PartitionedGraph
/-!
# Model: `StaticGraph` (static_graph.h, static_graph.cpp, static_graph_factory.cpp)

A graph is stored as an adjacency array: every undirected edge appears twice, once in the segment of each
of its end nodes, and both copies carry the same "unique edge id".  The model covers the construction from a
list of edges (`StaticGraphFactory::construct_from_graph_edges` and `sort_incident_edges`) and the
contraction of a clustering (`StaticGraph::contract`, `deduplicateTmpEdges`).

Simplifications: ids and weights are unbounded numbers; an iteration of a parallel loop is one atomic step
(iterations write disjoint cells apart from the atomic counters), and the iterations of every parallel loop
run in an arbitrary order given by the schedule; `std::sort` and `tbb::parallel_sort` are arbitrary functions
returning a sorted permutation (both are unstable sorts).
-/
namespace Verif
open SMap (wr)

/-- an entry of `_edges` together with its entry of `_unique_edge_ids` (static_graph.h:144-200, 948-950) -/
structure GEdge where
  src : Nat
  tgt : Nat
  w : Int
  uid : Nat
deriving DecidableEq, Inhabited

/-- `StaticGraph` (static_graph.h:934-965); `first u` is `_nodes[u].firstEntry()`, including the sentinel
`_nodes[n]`; `m` is `_num_edges`, the number of directed edges -/
structure SGraph where
  n : Nat
  m : Nat
  enabled : Nat → Bool
  nw : Nat → Int
  first : Nat → Nat
  edge : Nat → GEdge
  comm : Nat → Nat
  totalWeight : Int

namespace SGraph

/-- `nodes()` (static_graph.h:582-587) -/
def nodes (G : SGraph) : List Nat := (List.range G.n).filter G.enabled

/-- `nodeDegree` (static_graph.h:623-625) -/
def degree (G : SGraph) (u : Nat) : Nat := G.first (u + 1) - G.first u

/-- `incidentEdges` (static_graph.h:595-597, 906-909) -/
def inc (G : SGraph) (u : Nat) : List Nat := (List.range (G.degree u)).map (fun i => G.first u + i)

/-- the graph seen through its undirected edges, given by their end nodes and weights -/
def view (G : SGraph) (ends : Nat → Nat × Nat) (w : Nat → Int) : AGraph :=
  { nodes := G.nodes, nw := G.nw, edges := List.range (G.m / 2), ends := ends, w := w, inc := G.inc
    tgt := fun e => (G.edge e).tgt, uid := fun e => (G.edge e).uid, ew := fun e => (G.edge e).w }

end SGraph

namespace SG

/-- read / write a segment of an array -/
def rd {α : Type} (a : Nat → α) (s n : Nat) : List α := (List.range n).map (fun i => a (s + i))
def ws {α : Type} [Inhabited α] (a : Nat → α) (s : Nat) (l : List α) : Nat → α :=
  fun p => if s ≤ p ∧ p < s + l.length then l.getD (p - s) default else a p

/-! ### Contraction -/

/-- `TmpEdgeInformation` (static_graph.h:346-398); an edge is valid iff its weight is not zero -/
structure TE where
  tgt : Nat
  w : Int
  id : Nat
deriving DecidableEq, Inhabited

/-- `TmpEdgeInformation()` (static_graph.h:348-352) -/
def TE.none : TE := { tgt := kInvalid, w := 0, id := kInvalid }

/-- `isValid` (static_graph.h:362-364) -/
def TE.valid (t : TE) : Bool := decide (t.w ≠ 0)

/-- schedule of a contraction: orders of the parallel loops, the number of threads and of buckets, the order of
insertion into the concurrent bucket map, the unstable sorts, and the degree threshold
(`HIGH_DEGREE_CONTRACTION_THRESHOLD`, static_graph.h:64) -/
structure CSched where
  mark : List Nat
  agg : List Nat
  copy : List Nat
  dedup : List Nat
  write : List Nat
  comm : List Nat
  threshold : Nat
  threads : Nat
  logBuckets : Nat
  insert : Nat → List TE → List TE
  buckets : Nat → List Nat
  srt : List TE → List TE
  psrt : Nat → List TE → List TE

/-- `mapping[communities[node]] = 1` for all enabled nodes (static_graph.cpp:83-88) -/
def mapping (com : Nat → Nat) (order : List Nat) : Nat → Nat :=
  order.foldl (fun mp v => wr mp (com v) 1) (fun _ => 0)

/-- the id of a node in the coarse graph (static_graph.cpp:90-117) -/
def coarse (G : SGraph) (com mp : Nat → Nat) (v : Nat) : Nat :=
  if G.enabled v then psum mp (com v) else kInvalid

/-- aggregation of node weights and degrees (static_graph.cpp:120-127) -/
def aggregate (G : SGraph) (cid : Nat → Nat) (order : List Nat) : (Nat → Int) × (Nat → Nat) :=
  order.foldl (fun st v =>
    (wr st.1 (cid v) (st.1 (cid v) + G.nw v), wr st.2 (cid v) (st.2 (cid v) + G.degree v)))
    (fun _ => 0, fun _ => 0)

/-- the temporary edge written for edge `e` of a node of cluster `c` (static_graph.cpp:157-165) -/
def tmpEdge (G : SGraph) (cid : Nat → Nat) (c e : Nat) : TE :=
  let target := cid (G.edge e).tgt
  if target ≠ c then { tgt := target, w := (G.edge e).w, id := (G.edge e).uid } else TE.none

/-- write the incident edges of all nodes to the temporary edge array; `st.2` are the atomic positions
(static_graph.cpp:148-167) -/
def copyEdges (G : SGraph) (cid : Nat → Nat) (start : Nat → Nat) (tmp : Nat → TE) (order : List Nat) :
    (Nat → TE) × (Nat → Nat) :=
  order.foldl (fun st v =>
    let c := cid v
    (ws st.1 (start c + st.2 c) ((G.inc v).map (tmpEdge G cid c)), wr st.2 c (st.2 c + G.degree v)))
    (tmp, fun _ => 0)

/-- the `while` loop of `deduplicateTmpEdges` (static_graph.cpp:416-447) on the sorted array `a`; returns the
array and the final `valid_edge_index` -/
def dedupLoop : Nat → (Nat → TE) → Nat → Nat → Nat → (Nat → TE) × Nat
  | 0, a, v, _, _ => (a, v)
  | fuel + 1, a, v, t, len =>
    if decide (t < len) && (a t).valid then
      if (a v).tgt = (a t).tgt then
        let merged : TE := { tgt := (a v).tgt, w := (a v).w + (a t).w, id := min (a v).id (a t).id }
        dedupLoop fuel (wr (wr a v merged) t { a t with w := 0 }) v (t + 1) len
      else dedupLoop fuel (wr a (v + 1) (a t)) (v + 1) (t + 1) len
    else (a, v)

/-- `deduplicateTmpEdges` (static_graph.cpp:402-450): the edges that remain at the front of the range.  The cells
behind them are never read again and are not modelled. -/
def deduplicate (srt : List TE → List TE) (l : List TE) : List TE :=
  let s := srt l
  let r := dedupLoop s.length (fun i => s.getD i default) 0 1 s.length
  if 0 < s.length ∧ (r.1 0).valid then rd r.1 0 (r.2 + 1) else []

/-- chunk `i` of a range (chunking.h:35-41) -/
def chunk (threads : Nat) (l : List TE) (i : Nat) : List TE :=
  let size := (l.length + threads - 1) / threads
  let lo := min l.length (i * size)
  let hi := min l.length ((i + 1) * size)
  (l.drop lo).take (hi - lo)

/-- deduplication for a high degree vertex (static_graph.cpp:197-266): deduplicate chunks, distribute the
remaining edges to buckets by their target, deduplicate the buckets, concatenate them in the order in which they
claim their positions, sort by target -/
def dedupHighDegree (s : CSched) (c : Nat) (l : List TE) : List TE :=
  let items := ((List.range s.threads).map (fun i => deduplicate s.srt (chunk s.threads l i))).flatten
  let inserted := s.insert c items
  let out := ((s.buckets c).map (fun b =>
    deduplicate s.srt (inserted.filter (fun t => decide (t.tgt &&& (2 ^ s.logBuckets - 1) = b))))).flatten
  s.psrt c out

/-- the remaining edges of coarse node `c` (static_graph.cpp:181-192, 197-266) -/
def dedupNode (s : CSched) (c : Nat) (l : List TE) : List TE :=
  if l.length ≤ s.threshold then deduplicate s.srt l else dedupHighDegree s c l

/-- deduplicate all coarse nodes (static_graph.cpp:181-266); `st.2` is `node_sizes`.  Low and high degree vertices
are handled by separate loops in the code; since they work on disjoint ranges, one loop is used here. -/
def dedupAll (s : CSched) (start : Nat → Nat) (tmp : Nat → TE) : (Nat → TE) × (Nat → Nat) :=
  s.dedup.foldl (fun st c =>
    let l := dedupNode s c (rd st.1 (start c) (start (c + 1) - start c))
    (ws st.1 (start c) l, wr st.2 c l.length)) (tmp, fun _ => 0)

/-- copy the remaining edges of all coarse nodes and mark their unique ids (static_graph.cpp:299-325) -/
def writeEdges (tmp : Nat → TE) (start size : Nat → Nat) (order : List Nat) (edge0 : Nat → GEdge) :
    (Nat → GEdge) × (Nat → Nat) :=
  order.foldl (fun st c =>
    let l := rd tmp (start c) (size c)
    (ws st.1 (psum size c) (l.map (fun t => { src := c, tgt := t.tgt, w := t.w, uid := t.id })),
      l.foldl (fun mp t => wr mp t.id 1) st.2)) (edge0, fun _ => 0)

/-- `StaticGraph::contract` (static_graph.cpp:54-399): the coarse graph and the mapping of nodes to coarse nodes.
`tmp0` is the content of the reused buffer, `edge0` and `comm0` the uninitialised arrays of the coarse graph.
Fixed vertices are modelled in `Model/FixedVertices`. -/
def contract (G : SGraph) (com : Nat → Nat) (s : CSched) (tmp0 : Nat → TE) (edge0 : Nat → GEdge)
    (comm0 : Nat → Nat) : SGraph × (Nat → Nat) :=
  let mp := mapping com s.mark
  let cid := coarse G com mp
  let n' := psum mp G.n
  let agg := aggregate G cid s.agg
  let start := psum agg.2
  let copied := copyEdges G cid start tmp0 s.copy
  let ded := dedupAll s start copied.1
  let m' := psum ded.2 n'
  let wrt := writeEdges ded.1 start ded.2 s.write edge0
  ({ n := n'
     m := m'
     enabled := fun _ => true
     nw := agg.1
     first := psum ded.2
     edge := fun e => if e < m' then { wrt.1 e with uid := psum wrt.2 (wrt.1 e).uid } else wrt.1 e
     comm := s.comm.foldl (fun a v => wr a (cid v) (G.comm v)) comm0
     totalWeight := G.totalWeight }, cid)

/-- `srt` returns a permutation sorted by target (comparator of static_graph.cpp:404-407) -/
def IsSort (srt : List TE → List TE) : Prop :=
  ∀ l, (srt l).Perm l ∧ (srt l).Pairwise (fun a b => a.tgt ≤ b.tgt)

/-- every loop runs each of its iterations once -/
structure Legal (s : CSched) (G : SGraph) (com : Nat → Nat) : Prop where
  mark : s.mark.Perm G.nodes
  agg : s.agg.Perm G.nodes
  copy : s.copy.Perm G.nodes
  comm : s.comm.Perm G.nodes
  dedup : s.dedup.Perm (List.range (psum (mapping com s.mark) G.n))
  write : s.write.Perm (List.range (psum (mapping com s.mark) G.n))
  threads : 0 < s.threads
  insert : ∀ c l, (s.insert c l).Perm l
  buckets : ∀ c, (s.buckets c).Perm (List.range (2 ^ s.logBuckets))
  srt : IsSort s.srt
  psrt : ∀ c, IsSort (s.psrt c)

/-! ### Construction -/

/-- schedule of a construction: number of threads of the degree count and which thread counts which edge, the
order in which the ends of the edges are written, the unstable sort (of positions by target), the
reduction of the total weight -/
structure FSched (n : Nat) where
  threads : Nat
  thread : Nat → Nat
  order : List (Nat × Bool)
  srt : (Nat → Nat) → Nat → List Nat
  reduce : Factory.Reduce 0 n

/-- thread-local degree counts (static_graph_factory.cpp:119-134) and their sum (lines 138-143) -/
def degLocal (m : Nat) (ev : Nat → Nat × Nat) (thread : Nat → Nat) (t v : Nat) : Nat :=
  ((List.range m).filter (fun e => thread e = t)).foldl (fun (c : Nat) e =>
    [(ev e).1, (ev e).2].foldl (fun (c : Nat) pin => if pin = v then c + 1 else c) c) 0

def degCount (m : Nat) (ev : Nat → Nat × Nat) (threads : Nat) (thread : Nat → Nat) (v : Nat) : Nat :=
  (List.range threads).foldl (fun c t => c + degLocal m ev thread t v) 0

/-- `setup_edges` for one end of edge `pos` (static_graph_factory.cpp:155-183; `side = false`: the first end node):
claim a position of the end node with `fetch_add` (`st.2`) and write the entry.  The two ends of an edge are separate
atomic steps, so iterations of different edges interleave.  The weight of an edge is 1 unless `edge_weight` is given
(static_graph.h:148-151) -/
def writeEnd (ev : Nat → Nat × Nat) (ew : Nat → Int) (start : Nat → Nat) (st : (Nat → GEdge) × (Nat → Nat))
    (p : Nat × Bool) : (Nat → GEdge) × (Nat → Nat) :=
  let pin := if p.2 then (ev p.1).2 else (ev p.1).1
  let other := if p.2 then (ev p.1).1 else (ev p.1).2
  (wr st.1 (start pin + st.2 pin) { src := pin, tgt := other, w := ew p.1, uid := p.1 }, wr st.2 pin (st.2 pin + 1))

/-- `while (target < i) target = edge_ids_of_node[start + target]` (static_graph_factory.cpp:61-64) -/
def follow (ids : Nat → Nat) (i : Nat) : Nat → Nat → Nat
  | 0, t => t
  | fuel + 1, t => if t < i then follow ids i fuel (ids t) else t

/-- apply the permutation by swaps (static_graph_factory.cpp:58-67) -/
def applyPerm (ids : Nat → Nat) (start len : Nat) (edge : Nat → GEdge) : Nat → GEdge :=
  (List.range len).foldl (fun a i =>
    let t := follow ids i (i + 1) (ids i)
    wr (wr a (start + i) (a (start + t))) (start + t) (a (start + i))) edge

/-- `sort_incident_edges` (static_graph_factory.cpp:42-69) -/
def sortIncident (n : Nat) (srt : (Nat → Nat) → Nat → List Nat) (first : Nat → Nat) (edge : Nat → GEdge) :
    Nat → GEdge :=
  (List.range n).foldl (fun a u =>
    let len := first (u + 1) - first u
    let l := srt (fun i => (a (first u + i)).tgt) len
    applyPerm (fun i => l.getD i 0) (first u) len a) edge

/-- `construct_from_graph_edges` (static_graph_factory.cpp:93-218): `none` if the input is rejected by an exception,
`len` is the length of `edge_vector` -/
def construct (n m len : Nat) (ev : Nat → Nat × Nat) (ew nw : Option (Nat → Int)) (stable : Bool) (s : FSched n)
    (edge0 : Nat → GEdge) : Option SGraph :=
  if m > kInvalid / 2 then none
  else if len ≠ m then none
  else if (List.range m).any (fun e => decide ((ev e).1 = (ev e).2) || decide ((ev e).1 ≥ n) || decide ((ev e).2 ≥ n)) then
    none
  else
    let deg := degCount m ev s.threads s.thread
    let first := psum deg
    let edge := (s.order.foldl (writeEnd ev (Factory.weightOrOne ew) first) (edge0, fun _ => 0)).1
    let w := Factory.weightOrOne nw
    let tot := s.reduce.eval w
    if tot.2 then none
    else some
      { n := n, m := 2 * m
        enabled := fun v => decide (v < n), nw := w
        first := first
        edge := if stable then sortIncident n s.srt first edge else edge
        comm := fun _ => 0
        totalWeight := tot.1 }

/-- every edge is counted by a thread and each of its ends is written once; the sort returns a permutation of the positions, sorted by
target (static_graph_factory.cpp:51-56) -/
structure FSched.Legal {n : Nat} (s : FSched n) (m : Nat) : Prop where
  thread : ∀ e < m, s.thread e < s.threads
  order : s.order.Perm ((List.range m).flatMap (fun e => [(e, false), (e, true)]))
  srt : ∀ key len, (s.srt key len).Perm (List.range len) ∧
    (s.srt key len).Pairwise (fun a b => key a ≤ key b)

/-- `mt_kahypar_create_graph` (mtkahypar.cpp:330-352) and `lib::create_graph` (lib_helper_functions.h:384-412) for the
presets that use static graphs: the end nodes of edge `e` are `edges[2e]` and `edges[2e + 1]`; `none` means that the call
reports an error. -/
def createGraph (n m : Nat) (edges : Nat → Nat) (ew nw : Option (Nat → Int)) (s : FSched n) (edge0 : Nat → GEdge) :
    Option SGraph :=
  if (List.range m).any (fun e => decide (edges (2 * e) > kInvalid) || decide (edges (2 * e + 1) > kInvalid)) then none
  else if n > kInvalid ∨ m > kInvalid then none
  else construct n m m (fun e => (edges (2 * e), edges (2 * e + 1))) ew nw true s edge0

end SG
end Verif
