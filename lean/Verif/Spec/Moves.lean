import Verif.Spec.Hypergraph
/-!
# Specification: move sequences

A move sequence is a list of node moves.  An entry with `src = none` was deleted
(`Move::invalidate()`) and has no effect.
-/
namespace Verif

/-- a node move of the FM algorithm -/
structure FMMove where
  node : Nat
  src : Option Nat
  dst : Nat
  deriving DecidableEq

/-- the assignment after one entry of the sequence -/
def FMMove.apply (Φ : Assign) (m : FMMove) : Assign :=
  match m.src with
  | some _ => Φ.put m.node m.dst
  | none => Φ

/-- the assignment after a sequence -/
def applyMoves (Φ : Assign) (ms : List FMMove) : Assign := ms.foldl FMMove.apply Φ

/-- A move sequence that makes sense for `k` blocks and start assignment `Φ`: every node is moved at
most once, from the block it is in to a different block. -/
structure ValidMoves (H : HG) (k : Nat) (Φ : Assign) (ms : List FMMove) : Prop where
  once : ∀ i j : Nat, ∀ m m' : FMMove, ms[i]? = some m → ms[j]? = some m' → m.src ≠ none → m'.src ≠ none →
    m.node = m'.node → i = j
  legal : ∀ m ∈ ms, ∀ b, m.src = some b →
    m.node ∈ H.nodes ∧ Φ m.node = some b ∧ b < k ∧ m.dst < k ∧ b ≠ m.dst

/-- the largest weight of a block -/
def maxWeight (k : Nat) (W : Nat → Int) : Int := ((List.range k).map W).foldl max (W 0)

end Verif
