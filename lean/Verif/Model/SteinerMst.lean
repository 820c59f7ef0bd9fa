import Verif.Model.Steiner
/-!
# Model: distances of large connectivity sets, the cache and the connectivity test

Models `partition/mapping/target_graph.{h,cpp}`.
-/
namespace Verif.Steiner

/-! ### `computeWeightOfMSTOnMetricCompletion` (target_graph.cpp:108-160) -/

/-- `PQElement` -/
abbrev PQElem := Int × Nat

/-- the order of `std::pair<HyperedgeWeight, PartitionID>` -/
def pqLe (a b : PQElem) : Bool := decide (a.1 < b.1 ∨ (a.1 = b.1 ∧ a.2 ≤ b.2))

/-- `pq.top()` of a non-empty queue `a :: l`; the queue is the multiset of its elements, here a list -/
def pqTop (a : PQElem) (l : List PQElem) : PQElem := l.foldl (fun m x => if pqLe m x then m else x) a

/-- `MSTData` (target_graph.h:86-95) -/
structure MSTData where
  rem : Finset Nat
  lightest : Nat → Int
  pq : List PQElem

/-- body of the loop in `push` (target_graph.cpp:120-129) -/
def pushBody (n : Nat) (A : Table) (u : Nat) (d : MSTData) (v : Nat) : MSTData :=
  let dist := A (idx2 n u v)
  if dist < d.lightest v then
    { d with pq := (dist, v) :: d.pq, lightest := fun x => if x = v then dist else d.lightest x }
  else d

/-- `push(u)` (target_graph.cpp:119-130) -/
def pushAll (n : Nat) (A : Table) (u : Nat) (d : MSTData) : MSTData :=
  (bitsOf n d.rem).foldl (pushBody n A u) d

/-- body of the initialisation loop (target_graph.cpp:134-138) -/
def mstInitBody (s : MSTData × Nat) (b : Nat) : MSTData × Nat :=
  ({ s.1 with rem := insert b s.1.rem, lightest := fun x => if x = b then maxW else s.1.lightest x }, b)

/-- initialisation (target_graph.cpp:133-140); `root` is `kInvalidPartition` only for the empty set, which
is excluded by the assertion in line 110 -/
def mstInit (n : Nat) (A : Table) (X : Finset Nat) (d : MSTData) : MSTData :=
  let s := (bitsOf n X).foldl mstInitBody (d, 0)
  pushAll n A s.2 { s.1 with rem := s.1.rem.erase s.2 }

/-- one iteration of the main loop (target_graph.cpp:144-153) for the queue `a :: l` -/
def mstStep (n : Nat) (A : Table) (a : PQElem) (l : List PQElem) (d : MSTData) (res : Int) : MSTData × Int :=
  let best := pqTop a l
  let d1 : MSTData := { d with pq := (a :: l).erase best }
  if best.2 ∈ d.rem then
    (pushAll n A best.2 { d1 with rem := d1.rem.erase best.2 }, res + best.1)
  else (d1, res)

/-- the main loop (target_graph.cpp:143-154), at most `fuel` iterations -/
def mstLoop (n : Nat) (A : Table) : Nat → MSTData → Int → MSTData × Int
  | 0, d, res => (d, res)
  | fuel + 1, d, res =>
    match d.pq with
    | [] => (d, res)
    | a :: l =>
      let r := mstStep n A a l d res
      mstLoop n A fuel r.1 r.2

/-- `computeWeightOfMSTOnMetricCompletion` (target_graph.cpp:108-160).  `n^2 + n` iterations suffice
(`mst_ends`). -/
def mstWeight (n : Nat) (A : Table) (X : Finset Nat) (d : MSTData) : MSTData × Int :=
  let r := mstLoop n A (n * n + n) (mstInit n A X d) 0
  ({ r.1 with rem := ∅ }, r.2)

/-! ### The cache -/

/-- `computeHash` (target_graph.h:245-252): bitwise or of `1 << block`.  For `block >= 64` the shift is
undefined in C++; x86 takes the shift count modulo 64, which is what is modelled. -/
def setHash (n : Nat) (X : Finset Nat) : Nat :=
  (bitsOf n X).foldl (fun h b => h ||| (1 <<< (b % 64))) 0

/-- the concurrent hash table -/
abbrev Cache := Nat → Option Int

/-- `insert` does not change an existing entry -/
def Cache.ins (c : Cache) (key : Nat) (v : Int) : Cache :=
  match c key with
  | some _ => c
  | none => fun x => if x = key then some v else c x

/-- `TargetGraph::distance(set)` (target_graph.cpp:58-98), executed without interruption.  `s` is
`_max_precomputed_connectitivty`. -/
def distanceSet (n : Nat) (A : Table) (s : Nat) (X : Finset Nat) (c : Cache) (d : MSTData) : Int × Cache × MSTData :=
  if (bitsOf n X).length ≤ s then (A (setIdx n X), c, d)
  else match c (setHash n X) with
    | some v => (v, c, d)
    | none =>
      let r := mstWeight n A X d
      (r.2, c.ins (setHash n X) r.2, r.1)

/-- program counter of a thread that executes `distance(set)`: before the look-up; before the insertion
of the computed weight (`handle.insert`, `_cache.insert`); finished with a result -/
inductive DistPC where
  | find (X : Finset Nat)
  | insert (X : Finset Nat) (v : Int)
  | done (X : Finset Nat) (v : Int)

/-- a step of one thread; look-up and insertion are atomic operations of the concurrent hash table.
`d` is the thread-local scratch memory. -/
def distStep (n : Nat) (A : Table) (s : Nat) (c : Cache) (d : MSTData) : DistPC → Cache × MSTData × DistPC
  | .find X =>
    if (bitsOf n X).length ≤ s then (c, d, .done X (A (setIdx n X)))
    else match c (setHash n X) with
      | some v => (c, d, .done X v)
      | none =>
        let r := mstWeight n A X d
        (c, r.1, .insert X r.2)
  | .insert X v => (c.ins (setHash n X) v, d, .done X v)
  | .done X v => (c, d, .done X v)

/-! ### Modified connectivity sets (target_graph.h:158-203) -/

/-- `distanceWithBlock`: the set handed to `distance` and the set afterwards -/
def withBlock (X : Finset Nat) (b : Nat) : Finset Nat × Finset Nat :=
  let was := decide (b ∈ X)
  let Y := insert b X
  (Y, if !was then Y.erase b else Y)

/-- `distanceWithoutBlock` -/
def withoutBlock (X : Finset Nat) (b : Nat) : Finset Nat × Finset Nat :=
  let was := decide (b ∈ X)
  let Y := X.erase b
  (Y, if was then insert b Y else Y)

/-- `distanceAfterExchangingBlocks` -/
def exchangeBlocks (X : Finset Nat) (r a : Nat) : Finset Nat × Finset Nat :=
  let wasR := decide (r ∈ X)
  let wasA := decide (a ∈ X)
  let Y := insert a (X.erase r)
  let Z := if wasR then insert r Y else Y
  (Y, if !wasA then Z.erase a else Z)

/-! ### `inputGraphIsConnected` (target_graph.cpp:162-183) -/

structure Dfs where
  stack : List Nat
  visited : Finset Nat
  num : Nat

/-- loop over the incident edges of `hn` (171-178) -/
def dfsEdge (s : Dfs) (nb : Nat) : Dfs :=
  if nb ∈ s.visited then s else { stack := nb :: s.stack, visited := insert nb s.visited, num := s.num + 1 }

/-- targets of the incident edges -/
def targets (arcs : List Arc) (u : Nat) : List Nat := (arcs.filter (fun a => a.1 == u)).map (fun a => a.2.1)

/-- the loop (168-181), at most `fuel` iterations -/
def dfsLoop (n : Nat) (arcs : List Arc) : Nat → Dfs → Dfs
  | 0, s => s
  | fuel + 1, s =>
    match s.stack with
    | [] => s
    | hn :: rest => if s.num < n then dfsLoop n arcs fuel ((targets arcs hn).foldl dfsEdge { s with stack := rest }) else s

/-- `inputGraphIsConnected` -/
def isConnected (n : Nat) (arcs : List Arc) : Bool :=
  (dfsLoop n arcs (n + 1) ⟨[0], {0}, 1⟩).num == n

/-! ### `precomputeDistances` -/

inductive PreResult where
  | assertion
  | invalidInput
  | outOfMemory
  | ok (A : Table)

/-- `precomputeDistances` (target_graph.cpp:39-56); `std::pow` is exact for the values compared with the
limit -/
def precomputeDistances (n : Nat) (arcs : List Arc) (s : Nat) : PreResult :=
  if s < 2 then .assertion
  else if !isConnected n arcs then .invalidInput
  else if n ^ s > 100000000 then .outOfMemory
  else .ok (precompute n arcs s)

end Verif.Steiner
