import Verif.Model.DynamicHypergraph
import Mathlib.Algebra.BigOperators.Group.Finset.Basic
/-!
# Specification: what it means that a hypergraph is contracted

`par` maps every node to the node it was contracted onto (to itself if it was not contracted).
The definitions only use the data a user of the hypergraph can ask for: enabled nodes and nets, node
weights, pins, incident nets, degrees and net weights.
-/
namespace Verif
namespace Dyn

/-- `v` is contained in node `r`, which is not contracted -/
def InCluster (par : Nat → Nat) (v r : Nat) : Prop := par r = r ∧ ∃ i, par^[i] v = r

open Classical in
/-- Hypergraph `s` is the hypergraph `s0`, contracted along `par` (a forest), with some nets removed. -/
structure ContractedBy (s0 s : DH) (par : Nat → Nat) : Prop where
  /-- the enabled nodes are the nodes that are not contracted -/
  nodes : ∀ v < s0.n, s.en v = true ↔ s0.en v = true ∧ par v = v
  /-- the weight of a node is the weight of all nodes it contains -/
  weight : ∀ u < s0.n, s.en u = true →
    s.wt u = ∑ v ∈ (Finset.range s0.n).filter (fun v => s0.en v = true ∧ InCluster par v u), s0.wt v
  /-- an enabled net contains the clusters of its pins, each of them once -/
  pinsNodup : ∀ e < s0.m, s.een e = true → (s.edgePins e).Nodup
  pins : ∀ e < s0.m, s.een e = true → ∀ u, u ∈ s.edgePins e ↔ ∃ v ∈ s0.edgePins e, InCluster par v u
  /-- the incident nets of an enabled node are the enabled nets that contain it, each of them once -/
  nets : ∀ u < s0.n, s.en u = true → ∃ l, s.ina.incidentEdges u = some l ∧ l.Nodup ∧
    (∀ e, e ∈ l ↔ e < s0.m ∧ s.een e = true ∧ u ∈ s.edgePins e) ∧ s.ina.dg u = l.length

/-- The node `v` is contained in, according to the mementos `(u, v)` that are still to be undone: `u`, and
`v` itself if there is none. -/
def mementoPar (L : List (List (List (Nat × Nat)))) (v : Nat) : Nat :=
  match L.flatten.flatten.find? (fun p => p.2 == v) with
  | some p => p.1
  | none => v

/-- Everything a user can ask for is the same in `s` and in `s0`, up to the order of pins and incident nets. -/
structure SameHypergraph (s0 s : DH) : Prop where
  nodes : ∀ v < s0.n, s.en v = s0.en v
  weight : ∀ v < s0.n, s0.en v = true → s.wt v = s0.wt v
  nets : ∀ e < s0.m, s.een e = s0.een e
  netWeight : ∀ e < s0.m, s.ew e = s0.ew e
  pins : ∀ e < s0.m, s0.een e = true → (s.edgePins e).Perm (s0.edgePins e)
  incident : ∀ v < s0.n, s0.en v = true → ∃ l l0, s.ina.incidentEdges v = some l ∧ s0.ina.incidentEdges v = some l0 ∧ l.Perm l0
  degree : ∀ v < s0.n, s0.en v = true → s.ina.dg v = s0.ina.dg v

open Classical in
/-- Sum of a function of the nets over all enabled nets, weighted with the net weights. With
`f = ` the contribution of a net (given by the images of its pins under `ρ`) to an objective function
under a partition, this is the value of that objective function. -/
noncomputable def netSum (s : DH) (ρ : Nat → Nat) (f : Finset Nat → Int) : Int :=
  ∑ e ∈ (Finset.range s.m).filter (fun e => s.een e = true), s.ew e * f ((s.edgePins e).map ρ).toFinset

end Dyn
end Verif
