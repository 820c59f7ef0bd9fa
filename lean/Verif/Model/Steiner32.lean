import Verif.Model.Steiner
/-!
# Model: the distance computation in 32-bit arithmetic

The definitions of `Model/Steiner.lean` with every addition of distances carried out in `int32_t`
(signed overflow, undefined in C++, is modelled as wrap-around).
-/
namespace Verif.Steiner

/-- `a + b` for `HyperedgeWeight` (int32_t) -/
def add32 (a b : Int) : Int := Int.bmod (a + b) (2 ^ 32)

/-- all_pair_shortest_path.cpp:58-59 -/
def floydBody32 (n k u v : Nat) (A : Table) : Table :=
  A.set (idx2 n u v) (min (A (idx2 n u v)) (add32 (A (idx2 n u k)) (A (idx2 n k v))))

/-- all_pair_shortest_path.cpp:39-63 -/
def allPairs32 (n : Nat) (arcs : List Arc) (A : Table) : Table :=
  (List.range n).foldl (fun A k => (List.range n).foldl (fun A u => (List.range n).foldl (fun A v => floydBody32 n k u v A) A) A)
    (initMatrix n arcs A)

/-- steiner_tree.cpp:124-136 -/
def minDist32 (n : Nat) (D : Finset Nat) (u : Nat) (A : Table) : Int :=
  (subsetEnum n D).foldl (fun mn E => min mn (add32 (A (setIdx n (insert u E))) (A (setIdx n (insert u (symmDiff D E)))))) maxW

/-- steiner_tree.cpp:137-150 -/
def relaxAll32 (n : Nat) (D : Finset Nat) (u : Nat) (A : Table) : Table :=
  let mn := minDist32 n D u A
  (List.range n).foldl (fun A v =>
    let i := setIdx n (insert v D)
    A.set i (min (A i) (add32 (A (idx2 n u v)) mn))) A

/-- steiner_tree.cpp:94-155 -/
def compute32 (n : Nat) (arcs : List Arc) (maxSize : Nat) (A : Table) : Table :=
  (List.range' 2 (maxSize - 2)).foldl
    (fun A m => (setEnum n m).foldl (fun A D => (List.range n).foldl (fun A u => relaxAll32 n D u A) A) A) (allPairs32 n arcs A)

/-- target_graph.cpp:39-56 -/
def precompute32 (n : Nat) (arcs : List Arc) (maxSize : Nat) : Table := compute32 n arcs maxSize (fun _ => kInvalid)

/-- the bound passed to `precomputeDistances` by the partitioner (partitioner.cpp:236-238) -/
def partitionerBound (maxSteinerTreeSize k maxEdgeSize : Nat) : Nat := min (min maxSteinerTreeSize k) maxEdgeSize

/-- the bound used by `mt_kahypar_steiner_tree` and the python module (lib/mtkahypar.cpp:684,
python/module.cpp:658) -/
def apiBound : Nat := 4

end Verif.Steiner
