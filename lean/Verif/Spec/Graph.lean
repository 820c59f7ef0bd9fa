import Verif.Model.PartitionedGraph
/-!
# Specification: weighted graphs with partitions

Everything is defined from the undirected edge list and the block assignment.
-/
namespace Verif
namespace AGraph

/-- Well-formed: the undirected edges join two different nodes, and the adjacency array lists every
undirected edge exactly once at each of its end nodes, with the other end node as target. -/
structure WF (G : AGraph) : Prop where
  nodes_nodup : G.nodes.Nodup
  edges_nodup : G.edges.Nodup
  ends_mem : ∀ x ∈ G.edges, (G.ends x).1 ∈ G.nodes ∧ (G.ends x).2 ∈ G.nodes
  ends_ne : ∀ x ∈ G.edges, (G.ends x).1 ≠ (G.ends x).2
  inc_nodup : ∀ u ∈ G.nodes, ((G.inc u).map G.uid).Nodup
  inc_iff : ∀ u ∈ G.nodes, ∀ x, x ∈ (G.inc u).map G.uid ↔ x ∈ G.edges ∧ (u = (G.ends x).1 ∨ u = (G.ends x).2)
  tgt : ∀ u ∈ G.nodes, ∀ e ∈ G.inc u, (G.ends (G.uid e) = (u, G.tgt e) ∨ G.ends (G.uid e) = (G.tgt e, u))
  ew : ∀ u ∈ G.nodes, ∀ e ∈ G.inc u, G.ew e = G.w (G.uid e)

/-- edge cut: total weight of the edges whose end nodes are in different blocks -/
def cut (G : AGraph) (Φ : Assign) : Int :=
  (G.edges.map (fun x => if Φ (G.ends x).1 ≠ Φ (G.ends x).2 then G.w x else 0)).sum

/-- total node weight of block `b` -/
def blockWeight (G : AGraph) (Φ : Assign) (b : Nat) : Int :=
  ((G.nodes.filter (fun v => Φ v = some b)).map G.nw).sum

end AGraph
end Verif
