import Verif.Spec.Hypergraph
/-!
# Model: flat initial partitioners (random and BFS)

Modelled from
`/repo/mt-kahypar/partition/initial_partitioning/random_initial_partitioner.cpp` (lines 35-66, `fitsIntoBlock` in the `.h` lines 54-60),
`/repo/mt-kahypar/partition/initial_partitioning/bfs_initial_partitioner.cpp` (lines 36-160, `.h` lines 56-86) and
`/repo/mt-kahypar/partition/initial_partitioning/initial_partitioning_data_container.h` (lines 441-482, 677-688).

Every initial partitioner works on its thread's own partitioned hypergraph, so the code is sequential. Random numbers are arbitrary inputs: the block chosen
for each node, the order of the array of unassigned nodes, the start nodes of the blocks (`PseudoPeripheralStartNodes` is not modelled, its result is any list of
node ids per block). `commit` (copying the partition, refinement) is not modelled here.
-/
namespace Verif
namespace FlatIP

/-- what both algorithms read: hypergraph, number of blocks, `perfect_balance_part_weights`, the fixed vertices of the container and their blocks,
`ignore_hyperedge_size_threshold` -/
structure Ctx where
  H : HG
  k : Nat
  bound : Nat → Int
  fixedNodes : List Nat
  fixedBlock : Nat → Nat
  maxSize : Nat

/-- the local partitioned hypergraph: `partID` and `partWeight`. Weights are integers without overflow. -/
structure Part where
  part : Assign
  wt : Nat → Int

/-- a partitioned hypergraph after `resetPartition` -/
def Part.empty : Part := ⟨fun _ => none, fun _ => 0⟩

variable (C : Ctx)

/-- `setNodePart` (partitioned_hypergraph.h): stores the block and adds the node weight to the block's weight. The pin counts are modelled in C01 and are
not read here. -/
def setNodePart (p : Part) (v b : Nat) : Part :=
  ⟨p.part.put v b, fun c => if c = b then p.wt c + C.H.nw v else p.wt c⟩

/-- `fitsIntoBlock` (random_initial_partitioner.h lines 54-60, bfs_initial_partitioner.h lines 56-62) -/
def fits (p : Part) (v b : Nat) : Bool := decide (p.wt b + C.H.nw v ≤ C.bound b)

/-- `preassignFixedVertices` (initial_partitioning_data_container.h lines 681-688); without fixed vertices the list is empty -/
def preassign (p : Part) : Part := C.fixedNodes.foldl (fun p v => setNodePart C p v (C.fixedBlock v)) p

/-! ## Random -/

/-- the `while` loop of random_initial_partitioner.cpp lines 48-57, entered with `current_block = cur` -/
inductive RSearch (p : Part) (v block : Nat) : Nat → Nat → Prop
  | fit {cur : Nat} (h : fits C p v cur = true) : RSearch p v block cur cur
  | wrap {cur : Nat} (h : fits C p v cur = false) (hw : (cur + 1) % C.k = block) : RSearch p v block cur block
  | next {cur r : Nat} (h : fits C p v cur = false) (hw : (cur + 1) % C.k ≠ block) (hr : RSearch p v block ((cur + 1) % C.k) r) :
      RSearch p v block cur r

/-- the loop over the nodes (lines 43-60): fixed vertices are skipped, for the others `select_random_block` returns any block -/
inductive RLoop : List Nat → Part → Part → Prop
  | nil (p : Part) : RLoop [] p p
  | fixed {v : Nat} {l : List Nat} {p q : Part} (h : v ∈ C.fixedNodes) (hl : RLoop l p q) : RLoop (v :: l) p q
  | node {v block cur : Nat} {l : List Nat} {p q : Part} (h : v ∉ C.fixedNodes) (hb : block < C.k) (hs : RSearch C p v block block cur)
      (hl : RLoop l (setNodePart C p v cur) q) : RLoop (v :: l) p q

/-- `RandomInitialPartitioner::partitionImpl` (lines 35-66) up to the commit -/
def Random (q : Part) : Prop := RLoop C C.H.nodes (preassign C Part.empty) q

/-! ## BFS -/

/-- state of `BFSInitialPartitioner::partitionImpl`: the partition, the queue of every block (front first), the flags `hypernodes_in_queue` and
`hyperedges_in_queue` (indexed by block and id instead of `block * n + id`), the array of unassigned nodes with its pointer, `num_assigned_hypernodes` -/
structure St where
  p : Part
  q : Nat → List Nat
  nq : Nat → Nat → Bool
  eq : Nat → Nat → Bool
  un : Nat → Nat
  ptr : Nat
  cnt : Nat

/-- `std::swap(un[i], un[j])` -/
def swap (un : Nat → Nat) (i j : Nat) : Nat → Nat := fun x => if x = i then un j else if x = j then un i else un x

/-- `get_unassigned_hypernode` (initial_partitioning_data_container.h lines 461-482) with the default argument: returns the node, the array and the pointer -/
def getUn (part : Assign) : (Nat → Nat) → Nat → Option Nat × (Nat → Nat) × Nat
  | un, 0 => (none, un, 0)
  | un, p + 1 =>
    if part (un 0) = none ∧ un 0 ∉ C.fixedNodes then (some (un 0), un, p + 1)
    else getUn part (swap un 0 p) p

/-- lines 79-97: pop nodes until an unassigned one fits into the block; `hn` is the last unassigned node popped so far -/
def popLoop (p : Part) (b : Nat) : List Nat → Option Nat → Option Nat × Bool × List Nat
  | [], hn => (hn, false, [])
  | x :: q, hn =>
    if p.part x = none then
      if fits C p x b then (some x, true, q) else popLoop p b q (some x)
    else popLoop p b q hn

/-- one pin of `pushIncidentHypernodesIntoQueue` (lines 147-151) -/
def pushPin (b : Nat) (s : St) (u : Nat) : St :=
  if s.nq b u = false ∧ s.p.part u = none then
    { s with q := fun c => if c = b then s.q c ++ [u] else s.q c, nq := fun c x => if c = b ∧ x = u then true else s.nq c x }
  else s

/-- one incident hyperedge of `pushIncidentHypernodesIntoQueue` (lines 144-155) -/
def pushEdge (b : Nat) (s : St) (e : Nat) : St :=
  if s.eq b e = false then
    let s' := if (C.H.pins e).length ≤ C.maxSize then (C.H.pins e).foldl (pushPin b) s else s
    { s' with eq := fun c x => if c = b ∧ x = e then true else s'.eq c x }
  else s

/-- `pushIncidentHypernodesIntoQueue` (lines 134-157) -/
def push (b v : Nat) (s : St) : St := (C.H.inc v).foldl (pushEdge C b) s

/-- lines 99-107: if the queue yielded no unassigned node, take one from the array -/
def fetch (b : Nat) (s : St) : Option Nat × Bool × St :=
  let r := popLoop C s.p b (s.q b) none
  let s1 : St := { s with q := fun c => if c = b then r.2.2 else s.q c }
  match r.1 with
  | some v => (some v, r.2.1, s1)
  | none =>
    let g := getUn C s.p.part s.un s.ptr
    let s2 : St := { s1 with un := g.2.1, ptr := g.2.2 }
    match g.1 with
    | none => (none, false, s2)
    | some v => (some v, fits C s.p v b, s2)

/-- lines 109-120: a node that does not fit into the block is ignored for now if it fits into another block -/
def ignored (p : Part) (b v : Nat) (fitsB : Bool) : Bool :=
  !fitsB && (List.range C.k).any (fun o => decide (o ≠ b) && fits C p v o)

/-- one block's turn (lines 74-130) -/
def step (b : Nat) (s : St) : St :=
  let r := fetch C b s
  match r.1 with
  | none => r.2.2
  | some v =>
    if ignored C r.2.2.p b v r.2.1 then r.2.2
    else push C b v { r.2.2 with p := setNodePart C r.2.2.p v b, cnt := r.2.2.cnt + 1 }

/-- the `for` loop over the blocks (lines 73-131) -/
def round (s : St) : St := (List.range C.k).foldl (fun s b => step C b s) s

/-- the `while` loop (lines 72-132); `current_num_nodes` is the number of enabled nodes -/
inductive Run : St → St → Prop
  | done {s : St} (h : C.H.nodes.length ≤ s.cnt) : Run s s
  | more {s t : St} (h : s.cnt < C.H.nodes.length) (hr : Run (round C s) t) : Run s t

/-- lines 46-71: state before the loop for start nodes `start` and the shuffled array `un` of length `m` -/
def init (start : Nat → List Nat) (un : Nat → Nat) (m : Nat) : St :=
  { p := preassign C Part.empty, q := start, nq := fun b v => decide (v ∈ start b), eq := fun _ _ => false,
    un := un, ptr := m, cnt := C.fixedNodes.length }

end FlatIP
end Verif
