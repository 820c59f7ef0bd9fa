import Verif.Model.PartitionedHypergraph
/-!
# Model of `partition/metrics.cpp`

`conn` is the `connectivity(he)` accessor of the partitioned (hyper)graph, `ew` its `edgeWeight`.
-/
namespace Verif.Metrics

/-- `Objective` (the steiner tree objective is treated in `Verif/Model/SteinerTree.lean`) -/
inductive Obj where
  | cut | km1 | soed
  deriving DecidableEq

/-- `ObjectiveFunction<...>::operator()` (metrics.cpp:41-66); `connectivity` is a signed int in
the C++ code, so `connectivity - 1` may be `-1`. -/
def contrib (conn : Nat → Nat) (ew : Nat → Int) : Obj → Nat → Int
  | .cut, e => if conn e > 1 then ew e else 0
  | .km1, e => max ((conn e : Int) - 1) 0 * ew e
  | .soed, e => if conn e > 1 then (conn e : Int) * ew e else 0

/-- the divisor `PartitionedHypergraph::is_graph ? 2 : 1` -/
def divisor (isGraph : Bool) : Int := if isGraph then 2 else 1

/-- `compute_objective_sequentially` (metrics.cpp:88-96); C++ `/` truncates. -/
def sequential (conn : Nat → Nat) (ew : Nat → Int) (isGraph : Bool) (edges : List Nat) (o : Obj) :
    Int :=
  (edges.foldl (fun acc e => acc + contrib conn ew o e) 0).tdiv (divisor isGraph)

/-- `compute_objective_parallel` (metrics.cpp:78-86). `locals` lists, for every thread-local
accumulator in the order in which `combine` visits them, the edges that thread processed. -/
def parallel (conn : Nat → Nat) (ew : Nat → Int) (isGraph : Bool) (locals : List (List Nat))
    (o : Obj) : Int :=
  ((locals.map (fun (es : List Nat) => es.foldl (fun acc e => acc + contrib conn ew o e) 0)).foldl
    (fun a b => a + b) 0).tdiv (divisor isGraph)

/-- the public `contribution(hg, he, objective)` (metrics.cpp:131-143): note that the case
`Objective::cut` dispatches to the soed function. -/
def contribution (conn : Nat → Nat) (ew : Nat → Int) : Obj → Nat → Int
  | .cut, e => contrib conn ew .soed e
  | .km1, e => contrib conn ew .km1 e
  | .soed, e => contrib conn ew .soed e

end Verif.Metrics

namespace Verif

/-- A graph in adjacency-array form: every undirected edge is stored as two directed edges
(`static_graph.h`): `src`/`tgt` of the directed edge ids `edges`. -/
structure DiGraph where
  edges : List Nat
  src : Nat → Nat
  tgt : Nat → Nat
  ew : Nat → Int

/-- `PartitionedGraph::connectivity` (partitioned_graph.h:686-700). -/
def DiGraph.connectivity (G : DiGraph) (part : Assign) (e : Nat) : Nat :=
  let s := part (G.src e)
  let t := part (G.tgt e)
  let sum := if s ≠ none then 1 else 0
  if t ≠ none ∧ t ≠ s then sum + 1 else sum

/-- `PartitionedGraph::pinCountInPart` (partitioned_graph.h:702-714) for static graphs, where
`isSinglePin` is always false (static_graph.h:653-655). -/
def DiGraph.pinCount (G : DiGraph) (part : Assign) (e b : Nat) : Nat :=
  let c := if some b = part (G.src e) then 1 else 0
  if some b = part (G.tgt e) then c + 1 else c

/-- `PartitionedGraph::numIncidentCutHyperedges` (partitioned_graph.h:674-684); `inc` is the list
of directed edges leaving `u`. -/
def DiGraph.numIncidentCut (G : DiGraph) (part : Assign) (inc : List Nat) (u : Nat) : Nat :=
  inc.foldl (fun n e => if part (G.tgt e) ≠ part u then n + 1 else n) 0

end Verif
