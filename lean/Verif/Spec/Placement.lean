import Verif.Spec.Hypergraph
/-!
# Specification: placing nodes one after the other into blocks

`Placed H k bound Φ tr Ψ`: `Ψ` results from `Φ` by placing the nodes of the trace `tr` (pairs of node and block) one after the other. Every node placed is a node of the
hypergraph that has no block yet, and it either fits into its block (the block weight, computed from the assignment at that moment, plus the node's weight is at
most the bound of the block), or it fits into no block at all.
-/
namespace Verif

inductive Placed (H : HG) (k : Nat) (bound : Nat → Int) : Assign → List (Nat × Nat) → Assign → Prop
  | nil (Φ : Assign) : Placed H k bound Φ [] Φ
  | cons {Φ Ψ : Assign} {v b : Nat} {tr : List (Nat × Nat)} (hv : v ∈ H.nodes) (hf : Φ v = none) (hb : b < k)
      (hfit : H.blockWeight Φ b + H.nw v ≤ bound b ∨ ∀ c < k, bound c < H.blockWeight Φ c + H.nw v)
      (h : Placed H k bound (Φ.put v b) tr Ψ) : Placed H k bound Φ ((v, b) :: tr) Ψ

end Verif
