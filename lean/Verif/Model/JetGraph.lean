import Verif.Model.PartitionedGraph
/-!
# Model: deterministic Jet refiner, the parts for graphs

Source: `mt-kahypar/partition/refinement/deterministic/deterministic_jet_refiner.cpp`: `graphAfterburner` (272-308) and `calculateGainDelta` (429-456), with the
attributed gains of the cut (`cut_attributed_gains_for_graphs.h`). The partition is only read by these functions.

Not modelled: the Steiner tree metric, 32-bit overflow.
-/
namespace Verif
namespace JetG

/-- the `SynchronizedEdgeUpdate` filled by both functions (lines 282-299 and 438-450) for the edge `e` and the block `other` of its other node -/
def upd (G : AGraph) (src dst : Nat) (other : Option Nat) (e : Nat) : GUpdate where
  he := e
  src := src
  dst := dst
  weight := G.ew e
  other := other
  srcAfter := if other = some src then 1 else 0
  dstAfter := if other = some src then 1 else if other = some dst then 2 else 1

/-- `block_of_other_node` (lines 292-294) for the other node `p` -/
def burnBlock (Φ : Assign) (gt : Nat → Int × Nat) (hn p : Nat) : Option Nat :=
  if (gt p).1 < (gt hn).1 ∨ ((gt p).1 = (gt hn).1 ∧ p < hn) then some (gt p).2 else Φ p

/-- `total_gain` (lines 280-301) -/
def total (G : AGraph) (Φ : Assign) (gt : Nat → Int × Nat) (hn : Nat) : Int :=
  (G.inc hn).foldl (fun t e => t + (upd G ((Φ hn).getD 0) (gt hn).2 (burnBlock Φ gt hn (G.tgt e)) e).gain) 0

/-- `graphAfterburner` (lines 272-308): the active nodes before and after (in any order) -/
def Burn (G : AGraph) (Φ : Assign) (gt : Nat → Int × Nat) (act act' : List Nat) : Prop := act'.Perm (act.filter (fun u => decide (total G Φ gt u ≤ 0)))

/-- `block_of_other_node` (line 445) -/
def deltaBlock (before after : Assign) (hn p : Nat) : Option Nat := if p < hn then after p else before p

/-- what node `hn` adds (lines 432-454) -/
def nodeDelta (G : AGraph) (before after : Assign) (hn : Nat) : Int :=
  if before hn ≠ after hn then
    (G.inc hn).foldl (fun t e => t + (upd G ((before hn).getD 0) ((after hn).getD 0) (deltaBlock before after hn (G.tgt e)) e).gain) 0
  else 0

/-- `calculateGainDelta` (lines 429-456): `chunks` are the nodes processed by the threads -/
def gainDelta (G : AGraph) (before after : Assign) (chunks : List (List Nat)) : Int :=
  (chunks.map (fun ch => ch.foldl (fun t hn => t + nodeDelta G before after hn) 0)).foldl (· + ·) 0

/-- the end of an iteration (lines 135-163) on a graph: `gain` is the sum of the attributed gains, which is zero because the moves are not synchronized; the rebalancer
does not change the quality -/
def quality (G : AGraph) (cur : Int) (before after : Assign) (chunks : List (List Nat)) : Int := (cur - 0) + gainDelta G before after chunks

end JetG
end Verif
