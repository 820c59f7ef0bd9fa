import Mathlib.Data.Finset.Card
import Mathlib.Data.Finset.Dedup
/-!
# Specification: hypergraphs, assignments and objective functions

Everything here is defined from the pin lists, the weights and the block assignment alone.
-/
namespace Verif

/-- A weighted hypergraph. `nodes`/`edges` are the (enabled) node and hyperedge ids,
`pins e` the pins of hyperedge `e`, `inc v` the hyperedges incident to node `v`. -/
structure HG where
  nodes : List Nat
  edges : List Nat
  pins : Nat → List Nat
  inc : Nat → List Nat
  nw : Nat → Int
  ew : Nat → Int

/-- Well-formedness: no duplicate ids or pins, pins are nodes, and the incidence lists are the
inverse of the pin lists. -/
structure HG.WF (H : HG) : Prop where
  nodes_nodup : H.nodes.Nodup
  edges_nodup : H.edges.Nodup
  pins_mem : ∀ e ∈ H.edges, ∀ v ∈ H.pins e, v ∈ H.nodes
  pins_nodup : ∀ e ∈ H.edges, (H.pins e).Nodup
  inc_nodup : ∀ v ∈ H.nodes, (H.inc v).Nodup
  inc_iff : ∀ v ∈ H.nodes, ∀ e, e ∈ H.inc v ↔ e ∈ H.edges ∧ v ∈ H.pins e

/-- A (possibly partial) assignment of nodes to blocks. -/
abbrev Assign := Nat → Option Nat

/-- The assignment with node `u` put into block `b`. -/
def Assign.put (Φ : Assign) (u b : Nat) : Assign := fun v => if v = u then some b else Φ v

namespace HG

/-- Number of pins of `e` in block `b`. -/
def pinsIn (H : HG) (Φ : Assign) (e b : Nat) : Nat :=
  (H.pins e).countP (fun v => Φ v = some b)

/-- The set of blocks that contain a pin of `e`. -/
def blocksOf (H : HG) (Φ : Assign) (e : Nat) : Finset Nat := ((H.pins e).filterMap Φ).toFinset

/-- Connectivity: number of distinct blocks among the pins of `e`. -/
def lam (H : HG) (Φ : Assign) (e : Nat) : Nat := (H.blocksOf Φ e).card

/-- Sum of the weights of the nodes in block `b`. -/
def blockWeight (H : HG) (Φ : Assign) (b : Nat) : Int :=
  ((H.nodes.filter (fun v => Φ v = some b)).map H.nw).sum

/-- Total node weight. -/
def totalWeight (H : HG) : Int := (H.nodes.map H.nw).sum

/-- cut-net objective: total weight of the hyperedges that span at least two blocks -/
def cut (H : HG) (Φ : Assign) : Int :=
  (H.edges.map (fun e => if H.lam Φ e > 1 then H.ew e else 0)).sum

/-- connectivity objective: sum of `w(e) (λ(e) - 1)` -/
def km1 (H : HG) (Φ : Assign) : Int :=
  (H.edges.map (fun e => ((H.lam Φ e : Int) - 1) * H.ew e)).sum

/-- sum of external degrees: sum of `w(e) λ(e)` over the hyperedges with `λ(e) > 1` -/
def soed (H : HG) (Φ : Assign) : Int :=
  (H.edges.map (fun e => if H.lam Φ e > 1 then (H.lam Φ e : Int) * H.ew e else 0)).sum

/-- number of incident hyperedges of `v` that span at least two blocks -/
def numCutIncident (H : HG) (Φ : Assign) (v : Nat) : Nat :=
  H.edges.countP (fun e => v ∈ H.pins e ∧ H.lam Φ e > 1)

end HG
end Verif
