import Verif.Model.StaticGraph
import Verif.Spec.Graph
/-!
# Specification: adjacency arrays of undirected weighted graphs, quotient graphs

Defined from the list of undirected edges (end nodes and weights) only.
-/
namespace Verif
namespace SGraph

/-- `G` is an adjacency array of the undirected graph with edges `0 … m/2 - 1`, where edge `x` joins the nodes
`(ends x).1 ≠ (ends x).2` and has weight `w x`: the segments of the nodes are consecutive and cover the
edge array, the entries of a segment have its node as source, and every undirected edge appears exactly once in the
segment of each of its two end nodes (and nowhere else), with the other end node as target, the unique id `x` and the
weight `w x` (this is `AGraph.WF`). -/
structure Adj (G : SGraph) (ends : Nat → Nat × Nat) (w : Nat → Int) : Prop where
  small : G.n ≤ kInvalid
  first0 : G.first 0 = 0
  mono : ∀ u < G.n, G.first u ≤ G.first (u + 1)
  last : G.first G.n = G.m
  even : 2 * (G.m / 2) = G.m
  src : ∀ u < G.n, ∀ e ∈ G.inc u, (G.edge e).src = u
  isolated : ∀ u < G.n, G.enabled u = false → G.degree u = 0
  wf : (G.view ends w).WF

/-- an adjacency array with positive edge weights -/
structure Rep (G : SGraph) (ends : Nat → Nat × Nat) (w : Nat → Int) : Prop extends Adj G ends w where
  pos : ∀ x < G.m / 2, 0 < w x

/-- undirected edge `x` joins cluster `c` and cluster `d` -/
def Joins (ends : Nat → Nat × Nat) (cid : Nat → Nat) (c d x : Nat) : Prop :=
  (cid (ends x).1 = c ∧ cid (ends x).2 = d) ∨ (cid (ends x).1 = d ∧ cid (ends x).2 = c)

instance (ends : Nat → Nat × Nat) (cid : Nat → Nat) (c d x : Nat) : Decidable (Joins ends cid c d x) := by
  unfold Joins; infer_instance

/-- total weight of the edges joining clusters `c` and `d`, among the edges `0 … M-1` -/
def between (M : Nat) (ends : Nat → Nat × Nat) (w : Nat → Int) (cid : Nat → Nat) (c d : Nat) : Int :=
  (((List.range M).filter (fun x => decide (Joins ends cid c d x))).map w).sum

end SGraph
end Verif
