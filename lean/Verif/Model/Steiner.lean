import Mathlib.Data.Finset.SymmDiff
import Mathlib.Data.Finset.Insert
/-!
# Model: distances in the target graph

Models `partition/mapping/{all_pair_shortest_path.cpp, set_enumerator.h, steiner_tree.cpp,
target_graph.{h,cpp}}`.

* The target graph is the list of its directed edges (source, target, weight) in edge id order; a
  `ds::StaticGraph` stores both directions.
* Bitsets are finite sets; iteration over a bitset of a target graph with `n` nodes yields its elements
  in increasing order (`bitsOf`).
* The distance table is a function; `HyperedgeWeight` (int32) is an unbounded integer, the absence of
  overflow is a theorem.
-/
namespace Verif.Steiner

abbrev Arc := Nat × Nat × Int
abbrev Table := Nat → Int

def Table.set (A : Table) (i : Nat) (x : Int) : Table := fun j => if j = i then x else A j

/-- `kInvalidDistance` (target_graph.h:67) -/
def kInvalid : Int := (2 ^ 31 - 1) / 3

/-- `index(u, v, n)` (all_pair_shortest_path.cpp:32-36, steiner_tree.cpp:50-54, target_graph.h:225-229) -/
def idx2 (n u v : Nat) : Nat := u + v * n

/-- initialisation of the distance matrix (all_pair_shortest_path.cpp:45-52) -/
def initMatrix (n : Nat) (arcs : List Arc) (A : Table) : Table :=
  arcs.foldl (fun A a => A.set (idx2 n a.1 a.2.1) a.2.2)
    ((List.range n).foldl (fun A u => A.set (idx2 n u u) 0) A)

/-- body of the three nested loops (all_pair_shortest_path.cpp:58-59) -/
def floydBody (n k u v : Nat) (A : Table) : Table :=
  A.set (idx2 n u v) (min (A (idx2 n u v)) (A (idx2 n u k) + A (idx2 n k v)))

/-- loop over `v` -/
def floydRow (n k u : Nat) (A : Table) : Table := (List.range n).foldl (fun A v => floydBody n k u v A) A

/-- loops over `u` and `v` -/
def floydPhase (n k : Nat) (A : Table) : Table := (List.range n).foldl (fun A u => floydRow n k u A) A

/-- `AllPairShortestPath::compute` (all_pair_shortest_path.cpp:39-63) -/
def allPairs (n : Nat) (arcs : List Arc) (A : Table) : Table :=
  (List.range n).foldl (fun A k => floydPhase n k A) (initMatrix n arcs A)

/-! ### `SetEnumerator` (set_enumerator.h:39-165) -/

/-- `SetIterator`: sentinel `_cur_set[0]`, the entries `_cur_set[1..m]`, the bitset -/
structure SetIter where
  bound : Nat
  cur : List Nat
  bits : Finset Nat

/-- constructor, not at the end (set_enumerator.h:52-64) -/
def SetIter.first (n m : Nat) : SetIter :=
  { bound := n
    cur := (List.range m).map (fun i => m - 1 - i)
    bits := (List.range m).foldl (fun B i => insert i B) ∅ }

/-- `_cur_set[0]` and `_cur_set[1..m]` of the end iterator (65-70); `n - i` is a `size_t` -/
def SetIter.endCur (n m : Nat) : Nat × List Nat :=
  (n + 1, (List.range m).map (fun i => (n + 2 ^ 64 - (i + 1)) % 2 ^ 64))

/-- the two loops of `nextSet` (102-118): the first loop walks to the right until an entry can be
increased, the second one walks back and resets the entries before it.  `true`: an entry was
increased. -/
def nextSet : Nat → List Nat → Finset Nat → List Nat × Finset Nat × Bool
  | _, [], B => ([], B, false)
  | bound, c :: rest, B =>
    if c + 1 < bound then ((c + 1) :: rest, insert (c + 1) (B.erase c), true)
    else
      let r := nextSet c rest (B.erase c)
      if r.2.2 then
        let h := r.1.headD 0 + 1
        (h :: r.1, insert h r.2.1, true)
      else (c :: rest, r.2.1, false)

/-- `operator++` (77-80, 119-121) -/
def SetIter.next (s : SetIter) : SetIter :=
  let r := nextSet s.bound s.cur s.bits
  { bound := if r.2.2 then s.bound else s.bound + 1, cur := r.1, bits := r.2.1 }

/-- `operator==` with the end iterator (88-95) -/
def SetIter.atEnd (n m : Nat) (s : SetIter) : Bool :=
  s.bound == (SetIter.endCur n m).1 && s.cur == (SetIter.endCur n m).2

/-- the sets visited by `for ( set : SetEnumerator(n, m) )` within `fuel` iterations, and whether the
loop has ended -/
def enumLoop (n m : Nat) : Nat → SetIter → List (Finset Nat) × Bool
  | 0, s => ([], s.atEnd n m)
  | fuel + 1, s => if s.atEnd n m then ([], true) else
      let r := enumLoop n m fuel s.next
      (s.bits :: r.1, r.2)

/-- all sets visited; `n^m + 1` iterations suffice (`setEnum_ends`) -/
def setEnum (n m : Nat) : List (Finset Nat) := (enumLoop n m (n ^ m + 1) (SetIter.first n m)).1

/-! ### `SubsetEnumerator` (set_enumerator.h:172-281) -/

/-- elements of a bitset in iteration order -/
def bitsOf (n : Nat) (X : Finset Nat) : List Nat := (List.range n).filter (fun i => decide (i ∈ X))

/-- bitset after `applyNextMask` (223-232) produced the mask `mask` -/
def maskSet (set : List Nat) (mask : Nat) : Finset Nat :=
  (List.range set.length).foldl (fun B i => if mask.testBit i then insert (set.getD i 0) B
    else B.erase (set.getD i 0)) ∅

/-- the masks run from 1 to `2^|set| - 2` (191-195, 215-217) -/
def subsetEnum (n : Nat) (D : Finset Nat) : List (Finset Nat) :=
  let set := bitsOf n D
  (List.range' 1 (2 ^ set.length - 2)).map (maskSet set)

/-! ### `SteinerTree::compute` -/

/-- loop state of `index(set, k)`: index, multiplier, last block -/
def idxLoop (k : Nat) (s : Nat × Nat × Nat) (b : Nat) : Nat × Nat × Nat := (s.1 + s.2.1 * b, s.2.1 * k, b)

/-- `index(set, k)` (steiner_tree.cpp:37-48, target_graph.h:231-243); for the empty set the result is
0 (the initial value of `last` is irrelevant: there, multiplier 1 is compared with `k`) -/
def setIdx (k : Nat) (X : Finset Nat) : Nat :=
  let s := (bitsOf k X).foldl (idxLoop k) (0, 1, 0)
  s.1 + (if s.2.1 = k then s.2.2 * k else 0)

/-- `std::numeric_limits<HyperedgeWeight>::max()` -/
def maxW : Int := 2 ^ 31 - 1

/-- loop over the proper subsets of `D` (steiner_tree.cpp:124-136) -/
def minDist (n : Nat) (D : Finset Nat) (u : Nat) (A : Table) : Int :=
  (subsetEnum n D).foldl (fun mn E => min mn (A (setIdx n (insert u E)) + A (setIdx n (insert u (symmDiff D E))))) maxW

/-- loop over `v` (steiner_tree.cpp:137-150) -/
def relaxAll (n : Nat) (D : Finset Nat) (u : Nat) (A : Table) : Table :=
  let mn := minDist n D u A
  (List.range n).foldl (fun A v =>
    let i := setIdx n (insert v D)
    A.set i (min (A i) (A (idx2 n u v) + mn))) A

/-- loop over `u` (steiner_tree.cpp:123-151) -/
def processSet (n : Nat) (A : Table) (D : Finset Nat) : Table :=
  (List.range n).foldl (fun A u => relaxAll n D u A) A

/-- `SteinerTree::compute` (steiner_tree.cpp:94-155) -/
def compute (n : Nat) (arcs : List Arc) (maxSize : Nat) (A : Table) : Table :=
  (List.range' 2 (maxSize - 2)).foldl (fun A m => (setEnum n m).foldl (processSet n) A) (allPairs n arcs A)

/-- `TargetGraph::precomputeDistances` (target_graph.cpp:39-56) for a connected graph -/
def precompute (n : Nat) (arcs : List Arc) (maxSize : Nat) : Table := compute n arcs maxSize (fun _ => kInvalid)

end Verif.Steiner
