import Verif.Spec.Hypergraph
import Verif.Lemmas.Maps
/-!
# Model: `StaticHypergraph` (static_hypergraph.h) in its adjacency-array form

Arrays are modelled as total functions on indices.  A `tbb::parallel_for` is modelled as a loop that
runs its iterations in an arbitrary order given by the schedule; one iteration is one step.
-/
namespace Verif

/-- `kInvalidHypernode`, the largest 32-bit id (hypergraph_common.h:79) -/
def kInvalid : Nat := 4294967295

/-- `std::memcpy(a + s, l, |l|)` (used throughout static_hypergraph.cpp) -/
def writeSeg (a : Nat → Nat) (s : Nat) (l : List Nat) : Nat → Nat :=
  fun p => if s ≤ p ∧ p < s + l.length then l.getD (p - s) 0 else a p

/-- the entries `a[s], …, a[s+n-1]` (an iterator range in the code) -/
def readSeg (a : Nat → Nat) (s n : Nat) : List Nat := (List.range n).map (fun i => a (s + i))

/-- `TBBPrefixSum::operator[]` after the scan (parallel_prefix_sum.h:113-200); that a scan computes
this for every schedule is `C30_tbb_prefix_sum`. -/
def psum (x : Nat → Nat) (i : Nat) : Nat := ((List.range i).map x).sum

/-- `std::unique` on a range: drop every entry that equals its predecessor -/
def uniq : List Nat → List Nat
  | [] => []
  | [a] => [a]
  | a :: b :: l => if a = b then uniq (b :: l) else a :: uniq (b :: l)

/-- `std::sort` on ids (the result of sorting a list of integers is unique) -/
def sortIds (l : List Nat) : List Nat := l.mergeSort (fun a b => decide (a ≤ b))

/-- The members of `StaticHypergraph` (static_hypergraph.h:63-205, 972-1000): hypernodes and
hyperedges with enabled flag, first entry, size and weight, the two adjacency arrays and the
cached totals.  Community ids and fixed vertices are modelled separately. -/
structure SHG where
  n : Nat
  m : Nat
  hnEnabled : Nat → Bool
  hnFirst : Nat → Nat
  hnSize : Nat → Nat
  hnWeight : Nat → Int
  heEnabled : Nat → Bool
  heFirst : Nat → Nat
  heSize : Nat → Nat
  heWeight : Nat → Int
  incidenceArray : Nat → Nat
  incidentNets : Nat → Nat
  totalWeight : Int
  numPins : Nat
  totalDegree : Nat
  maxEdgeSize : Nat

namespace SHG

/-- `pins(e)` (static_hypergraph.h:569-576) -/
def pins (H : SHG) (e : Nat) : List Nat := readSeg H.incidenceArray (H.heFirst e) (H.heSize e)

/-- `incidentEdges(u)` (static_hypergraph.h:560-567) -/
def inc (H : SHG) (v : Nat) : List Nat := readSeg H.incidentNets (H.hnFirst v) (H.hnSize v)

/-- `nodes()`: ids of the enabled hypernodes (static_hypergraph.h:546-551) -/
def nodes (H : SHG) : List Nat := (List.range H.n).filter H.hnEnabled

/-- `edges()`: ids of the enabled hyperedges (static_hypergraph.h:553-558) -/
def edges (H : SHG) : List Nat := (List.range H.m).filter H.heEnabled

/-- The hypergraph a user sees through the query functions. -/
def toHG (H : SHG) : HG :=
  { nodes := H.nodes, edges := H.edges, pins := H.pins, inc := H.inc,
    nw := H.hnWeight, ew := H.heWeight }

end SHG
end Verif
