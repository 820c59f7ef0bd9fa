import Mathlib.Algebra.BigOperators.Group.List.Basic
/-!
# Specification: clusterings

A clustering is a map from nodes to cluster labels.  Nothing here refers to the program.
-/
namespace Verif

/-- summed weight of the nodes with label `r`: the weight of the coarse node made from them -/
def labelWeight (nodes : List Nat) (nw : Nat → Int) (label : Nat → Nat) (r : Nat) : Int :=
  ((nodes.filter fun x => decide (label x = r)).map nw).sum

/-- every label is the label of itself -/
def FlatClustering (nodes : List Nat) (label : Nat → Nat) : Prop :=
  ∀ x ∈ nodes, label x ∈ nodes ∧ label (label x) = label x

/-- number of nodes left after contracting every cluster to one node -/
def numClusters (nodes : List Nat) (label : Nat → Nat) : Nat := (nodes.map label).dedup.length

end Verif
