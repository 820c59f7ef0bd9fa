import Mathlib.Algebra.BigOperators.Group.Finset.Basic
import Mathlib.Algebra.Order.BigOperators.Group.Finset
import Mathlib.Data.Finset.Card
import Mathlib.Logic.Relation
/-!
# Specification: weighted graphs, shortest paths and Steiner trees
-/
namespace Verif

/-- an undirected simple graph on `0 .. n-1` with edge weights; the edge `{a, b}` is the pair with
`a < b` -/
structure WGraph where
  n : Nat
  edges : Finset (Nat × Nat)
  wt : Nat × Nat → Int

namespace WGraph

structure WF (G : WGraph) : Prop where
  ends : ∀ e ∈ G.edges, e.1 < e.2 ∧ e.2 < G.n
  nonneg : ∀ e ∈ G.edges, 0 ≤ G.wt e

/-- the pair representing the edge between `a` and `b` -/
def pair (a b : Nat) : Nat × Nat := if a ≤ b then (a, b) else (b, a)

/-- `a` and `b` are neighbours via an edge of `S` -/
def Adj (S : Finset (Nat × Nat)) (a b : Nat) : Prop := pair a b ∈ S

/-- walks and their length -/
inductive Walk (G : WGraph) : Nat → Nat → Int → Prop where
  | nil (a : Nat) : Walk G a a 0
  | cons {a b c : Nat} {w : Int} : Adj G.edges a b → Walk G b c w → Walk G a c (G.wt (pair a b) + w)

/-- `c` is the length of a shortest path between `a` and `b` -/
def IsDist (G : WGraph) (a b : Nat) (c : Int) : Prop := Walk G a b c ∧ ∀ w, Walk G a b w → c ≤ w

/-- the whole graph is connected -/
def Connected (G : WGraph) : Prop := ∀ a < G.n, ∀ b < G.n, Relation.ReflTransGen (Adj G.edges) a b

/-- `(U, S)` is a connected subgraph: nodes `U`, edges `S` -/
structure ConnSub (G : WGraph) (U : Finset Nat) (S : Finset (Nat × Nat)) : Prop where
  nodes : ∀ u ∈ U, u < G.n
  edges : S ⊆ G.edges
  ends : ∀ e ∈ S, e.1 ∈ U ∧ e.2 ∈ U
  conn : ∀ a ∈ U, ∀ b ∈ U, Relation.ReflTransGen (Adj S) a b

/-- weight of an edge set -/
def weight (G : WGraph) (S : Finset (Nat × Nat)) : Int := ∑ e ∈ S, G.wt e

/-- `c` is the minimum weight of a connected subgraph that contains `X` -/
def IsSteiner (G : WGraph) (X : Finset Nat) (c : Int) : Prop :=
  (∃ U S, G.ConnSub U S ∧ X ⊆ U ∧ G.weight S = c) ∧
  ∀ U S, G.ConnSub U S → X ⊆ U → c ≤ G.weight S

/-- `c` is the minimum weight of a set of edges that connects `X` without using other nodes, that is the
weight of a minimum spanning tree of `X` -/
def IsSpanning (G : WGraph) (X : Finset Nat) (c : Int) : Prop :=
  (∃ S, G.ConnSub X S ∧ G.weight S = c) ∧ ∀ S, G.ConnSub X S → c ≤ G.weight S

/-- `M` is the metric completion of `G` restricted to `X`: the complete graph on `X` whose edges are
weighted with the shortest path lengths of `G` -/
structure IsCompletion (G : WGraph) (X : Finset Nat) (M : WGraph) : Prop where
  n : M.n = G.n
  edges : ∀ a b, (a, b) ∈ M.edges ↔ a ∈ X ∧ b ∈ X ∧ a < b
  wt : ∀ a ∈ X, ∀ b ∈ X, a < b → IsDist G a b (M.wt (a, b))

end WGraph
end Verif
