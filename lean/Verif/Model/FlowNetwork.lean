import Verif.Model.DetFlow
/-!
# Model of the construction of a flow problem and of the flow refiner

* `partition/refinement/flows/problem_construction.{h,cpp}`: the region around the cut of two blocks
* `partition/refinement/flows/sequential_construction.{h,cpp}`, `parallel_construction.{h,cpp}`, `flow_hypergraph_builder.{h,cpp}`: the flow network
* `partition/refinement/gains/{km1,cut,soed}/*_flow_network_construction.h`: capacities
* `partition/refinement/flows/flow_refiner.{h,cpp}`: the moves

The queries `pinCountInPart`, `connectivity`, `partID`, `partWeight` of the partitioned hypergraph are the functions `pinsIn`, `lam`, `Φ`, `blockWeight` of the
specification here (C01-C04 show that the data structures return these values). Not modelled: the maximum flow algorithm (library WHFC, a parameter),
`determineDistanceFromCut` (a heuristic for the library), the Steiner tree metric, timers, 32-bit overflow. For graphs, a hyperedge is identified with its
unique edge id.
-/
namespace Verif
namespace FNet
open DetLP (Mv)
open DFlow (set)

/-! ### Region around the cut -/

/-- `Subhypergraph` (flow_common.h:66-79) -/
structure Region where
  n0 : List Nat
  n1 : List Nat
  w0 : Int
  w1 : Int
  hes : List Nat
  numPins : Nat

/-- Input of `construct`: hypergraph, fixed nodes, partition, blocks, `max_weight_block_0/1` (problem_construction.cpp:126-129, computed with floating
point numbers, arbitrary here), `max_bfs_distance`, `max_num_pins`. -/
structure Grow where
  H : HG
  fixed : Nat → Bool
  Φ : Assign
  b0 : Nat
  b1 : Nat
  mw0 : Int
  mw1 : Int
  maxDist : Nat
  maxPins : Nat

/-- `BFSData` (problem_construction.h:54-105) -/
structure Bfs where
  dist : Nat
  queue : List Nat
  next : List Nat
  vn : Nat → Bool
  ve : Nat → Bool
  ch : Nat → Bool
  locked : Nat → Bool
  q0 : Int
  q1 : Int
  lockQ : Bool

/-- the loop body of `add_pins_of_hyperedge_to_queue` (problem_construction.cpp:78-89) -/
def addPin (g : Grow) (x : Bfs) (pin : Nat) : Bfs :=
  if x.vn pin then x
  else
    let is0 := decide (g.Φ pin = some g.b0)
    let is1 := decide (g.Φ pin = some g.b1)
    let x' := if (is0 && !x.locked g.b0) || (is1 && !x.locked g.b1) then
        { x with next := x.next ++ [pin], q0 := x.q0 + (if is0 then g.H.nw pin else 0), q1 := x.q1 + (if is1 then g.H.nw pin else 0) }
      else x
    { x' with vn := set x'.vn pin true }

/-- `add_pins_of_hyperedge_to_queue` (problem_construction.cpp:70-99) -/
def addPins (g : Grow) (x : Bfs) (e : Nat) : Bfs :=
  let y := if decide (x.dist ≤ g.maxDist) && !x.lockQ && !x.ve e then
      let z := (g.H.pins e).foldl (addPin g) x
      { z with ve := set z.ve e true }
    else x
  if y.q0 ≥ g.mw0 ∧ y.q1 ≥ g.mw1 then { y with lockQ := true } else y

/-- `swap_with_next_queue` (problem_construction.h:87-92) -/
def swapQueue (x : Bfs) : Bfs := if x.next = [] then x else { x with queue := x.next, next := x.queue, dist := x.dist + 1 }

/-- the assignments of `isMaximumProblemSizeReached` (problem_construction.cpp:246-256) -/
def lockBlocks (g : Grow) (r : Region) (x : Bfs) : Bfs :=
  let l0 := if r.w0 ≥ g.mw0 then set x.locked g.b0 true else x.locked
  let l1 := if r.w1 ≥ g.mw1 then set l0 g.b1 true else l0
  { x with locked := if r.numPins ≥ g.maxPins then set (set l1 g.b0 true) g.b1 true else l1 }

/-- the loop over the incident hyperedges of a popped node (problem_construction.cpp:174-181) -/
def visitEdge (g : Grow) (fixed : Bool) (p : Region × Bfs) (e : Nat) : Region × Bfs :=
  let x := addPins g p.2 e
  if !fixed && !x.ch e then ({ p.1 with hes := p.1.hes ++ [e] }, { x with ch := set x.ch e true }) else (p.1, x)

/-- the loop body for a popped node (problem_construction.cpp:152-182) -/
def visit (g : Grow) (r : Region) (x : Bfs) (hn : Nat) : Region × Bfs :=
  if (decide (g.Φ hn = some g.b0) && !x.locked g.b0) || (decide (g.Φ hn = some g.b1) && !x.locked g.b1) then
    let r1 := if g.fixed hn then r
      else
        let r' := if g.Φ hn = some g.b0 then { r with n0 := r.n0 ++ [hn], w0 := r.w0 + g.H.nw hn } else { r with n1 := r.n1 ++ [hn], w1 := r.w1 + g.H.nw hn }
        { r' with numPins := r'.numPins + (g.H.inc hn).length }
    (g.H.inc hn).foldl (visitEdge g (g.fixed hn)) (r1, x)
  else (r, x)

/-- the search (problem_construction.cpp:147-187); the first argument bounds the number of iterations, `none` if it is too small -/
def bfsLoop (g : Grow) : Nat → Region → Bfs → Option (Region × Bfs)
  | 0, _, _ => none
  | f + 1, r, x =>
    match x.queue with
    | [] => some (r, x)
    | hn :: q =>
      let y := lockBlocks g r x
      if y.locked g.b0 && y.locked g.b1 then some (r, y)
      else
        let p := visit g r { y with queue := q } hn
        bfsLoop g f p.1 (if p.2.queue = [] then swapQueue p.2 else p.2)

/-- the initial queue (problem_construction.cpp:134-144) -/
def bfsStart (g : Grow) (cut : List Nat) : Bfs :=
  swapQueue (cut.foldl (fun x e => if 0 < g.H.pinsIn g.Φ e g.b0 ∧ 0 < g.H.pinsIn g.Φ e g.b1 then addPins g x e else x)
    ⟨0, [], [], fun _ => false, fun _ => false, fun _ => false, fun _ => false, 0, 0, false⟩)

/-- `construct` (problem_construction.cpp:106-235) for the sorted (or shuffled) list of cut hyperedges -/
def construct (g : Grow) (cut : List Nat) : Option Region :=
  (bfsLoop g (g.H.nodes.length + 1) ⟨[], [], 0, 0, [], 0⟩ (bfsStart g cut)).map Prod.fst

/-! ### Flow network -/

/-- Input of the construction of the network: partition, blocks, objective, hash function of a pin, number of hash buckets, number of threads' buckets -/
structure NCfg where
  H : HG
  Φ : Assign
  b0 : Nat
  b1 : Nat
  o : Metrics.Obj
  hash : Nat → Nat
  nb : Nat

/-- `getParameters`: the capacity of a hyperedge; the flags are false for these objectives
(km1_flow_network_construction.h:44-50, cut_flow_network_construction.h:44-55, soed_flow_network_construction.h:44-55) -/
def capacity (c : NCfg) (e : Nat) : Int :=
  match c.o with
  | .km1 => c.H.ew e
  | .cut => if c.H.pinsIn c.Φ e c.b0 + c.H.pinsIn c.Φ e c.b1 < (c.H.pins e).length then 0 else c.H.ew e
  | .soed => (if c.H.lam c.Φ e = 1 ∨ (c.H.lam c.Φ e = 2 ∧ 0 < c.H.pinsIn c.Φ e c.b0 ∧ 0 < c.H.pinsIn c.Φ e c.b1) then 2 else 1) * c.H.ew e

/-- hyperedges of the network: capacity and pins -/
abbrev Nets := List (Int × List Nat)

/-- The part of `FlowHypergraphBuilder` for hyperedges (flow_hypergraph_builder.h:148-179): finished hyperedges, capacity and pins of the open one. -/
structure Builder where
  edges : Nets
  cap : Int
  cur : List Nat

/-- `finishHyperedge` (flow_hypergraph_builder.cpp:74-84) -/
def Builder.finish (b : Builder) : Builder :=
  let b := if b.cur.length = 1 then { b with cur := [] } else b
  if b.cur.length > 0 then ⟨b.edges ++ [(b.cap, b.cur)], 0, []⟩ else b

/-- `startHyperedge` (flow_hypergraph_builder.h:153-158) -/
def Builder.start (b : Builder) (c : Int) : Builder := { b.finish with cap := c }

/-- `addPin` for each pin of a list (flow_hypergraph_builder.h:160-164) -/
def Builder.addPins (b : Builder) (pins : List Nat) : Builder := { b with cur := b.cur ++ pins }

/-- `removeCurrentHyperedge` (flow_hypergraph_builder.h:170-174) -/
def Builder.removeCurrent (b : Builder) : Builder := { b with cur := [] }

/-- `capacity(e) += c` -/
def Builder.raise (b : Builder) (e : Nat) (c : Int) : Builder := { b with edges := b.edges.modify e (fun p => (p.1 + c, p.2)) }

/-- State of the sequential construction: builder, `_hash_buckets` (hash and hyperedge; buckets with an old threshold count as empty), `total_cut`,
`non_removable_cut`, `current_he`. -/
structure SSt where
  hg : Builder
  bucket : Nat → List (Nat × Nat)
  total : Int
  nonrem : Int
  he : Nat

/-- the hash of a pin list (sequential_construction.cpp:169: 64-bit arithmetic) -/
def hashOf (c : NCfg) (pins : List Nat) : Nat := (pins.map c.hash).sum % 2 ^ 64

/-- search for an identical net (sequential_construction.cpp:42-60) -/
def findIdentical (b : Builder) (l : List (Nat × Nat)) (h : Nat) (pins : List Nat) : Option (Nat × Nat) :=
  l.find? (fun t => decide (t.1 = h) && decide ((b.edges[t.2]?).map Prod.snd = some pins))

/-- adds the pins of the open hyperedge or raises the capacity of an identical one
(sequential_construction.cpp:222-239, 352-369; `add_if_not_contained` lines 39-66) -/
def emit (c : NCfg) (s : SSt) (cap : Int) (pins : List Nat) : SSt :=
  if pins.length > 1 then
    let h := hashOf c pins
    match findIdentical s.hg (s.bucket (h % c.nb)) h pins with
    | some t => { s with hg := s.hg.raise t.2 cap }
    | none => { s with hg := s.hg.addPins pins, bucket := set s.bucket (h % c.nb) (s.bucket (h % c.nb) ++ [(h, s.he)]), he := s.he + 1 }
  else s

/-- writes consecutive ids for the elements of a list into a map (sequential_construction.cpp:143-151, 273-276) -/
def writeIds (f : Nat → Option Nat) : List Nat → Nat → Nat → Option Nat
  | [], _ => f
  | v :: l, n => writeIds (set f v (some n)) l (n + 1)

/-- `flow_problem.sink` (sequential_construction.cpp:159) -/
def sinkOf (r : Region) : Nat := r.n0.length + 1

/-- `_node_to_whfc` (sequential_construction.cpp:143-163) -/
def nodeMap (r : Region) : Nat → Option Nat := writeIds (writeIds (fun _ => none) r.n0 1) r.n1 (sinkOf r + 1)

/-- `push_into_tmp_pins` for source or sink: push and swap with the first entry (sequential_construction.cpp:167-175) -/
def pushFront (l : List Nat) (s : Nat) : List Nat :=
  match l with
  | [] => [s]
  | a :: r => s :: (r ++ [a])

/-- the order of the pins for the identical net detection (sequential_construction.cpp:216-219) -/
def sortPins (snk : Nat) (l : List Nat) : List Nat :=
  match l with
  | [] => []
  | a :: r => if a = 0 ∨ a = snk then a :: r.insertionSort (· ≤ ·) else (a :: r).insertionSort (· ≤ ·)

/-- the loop body of `constructDefault` (sequential_construction.cpp:179-241) -/
def defaultStep (c : NCfg) (r : Region) (s : SSt) (e : Nat) : SSt :=
  let cap := capacity c e
  if cap = 0 then s
  else
    let s := { s with hg := s.hg.start cap }
    let s := if 0 < c.H.pinsIn c.Φ e c.b0 ∧ 0 < c.H.pinsIn c.Φ e c.b1 then { s with total := s.total + cap } else s
    let pins := (c.H.pins e).filterMap (nodeMap r)
    let cs := (c.H.pins e).any (fun v => (nodeMap r v).isNone && decide (c.Φ v = some c.b0))
    let ct := (c.H.pins e).any (fun v => (nodeMap r v).isNone && decide (c.Φ v = some c.b1))
    if (cs && ct) || pins.isEmpty then
      { s with hg := s.hg.removeCurrent, nonrem := s.nonrem + (if cs && ct then cap else 0) }
    else
      let pins := if cs then pushFront pins 0 else if ct then pushFront pins (sinkOf r) else pins
      emit c s cap (sortPins (sinkOf r) pins)

def SSt.empty : SSt := ⟨⟨[], 0, []⟩, fun _ => [], 0, 0, 0⟩

/-- `constructDefault` (sequential_construction.cpp:126-245), hyperedges; the nodes are `nodesOf` and `weightsOf` below -/
def constructDefault (c : NCfg) (r : Region) : SSt := r.hes.foldl (defaultStep c r) SSt.empty

/-- `TmpPin` (sequential_construction.h:52-56) -/
structure TmpPin where
  e : Nat
  pin : Nat
  blk : Nat
  deriving DecidableEq

/-- the pins collected by `add_nodes` (sequential_construction.cpp:279-291) -/
def collect (H : HG) (heMap : Nat → Option Nat) (blk : Nat) : List Nat → Nat → List TmpPin
  | [], _ => []
  | v :: l, n => (H.inc v).map (fun e => ⟨(heMap e).getD 0, n, blk⟩) ++ collect H heMap blk l (n + 1)

/-- `_pins` before sorting (sequential_construction.cpp:273-304) -/
def largePins (c : NCfg) (r : Region) : List TmpPin :=
  let heMap := writeIds (fun _ => none) r.hes 0
  collect c.H heMap c.b0 r.n0 1 ++ collect c.H heMap c.b1 r.n1 (sinkOf r + 1)

/-- comparator of the pins (sequential_construction.cpp:311-313), as `l` not after `r` -/
def pinLe (l r : TmpPin) : Prop := l.e < r.e ∨ (l.e = r.e ∧ l.pin ≤ r.pin)

instance (l r : TmpPin) : Decidable (pinLe l r) := by unfold pinLe; infer_instance

/-- `add_hyperedge` for the pins `seg` of hyperedge number `last` (sequential_construction.cpp:321-372) -/
def addHyperedge (c : NCfg) (r : Region) (s : SSt) (last : Nat) (seg : List TmpPin) (c0 c1 : Nat) : SSt :=
  let e := r.hes.getD last 0
  let cap := capacity c e
  if cap > 0 then
    let cs := decide (c0 < c.H.pinsIn c.Φ e c.b0)
    let ct := decide (c1 < c.H.pinsIn c.Φ e c.b1)
    let s := if 0 < c.H.pinsIn c.Φ e c.b0 ∧ 0 < c.H.pinsIn c.Φ e c.b1 then { s with total := s.total + cap } else s
    let s := { s with hg := s.hg.start cap }
    if cs && ct then { s with nonrem := s.nonrem + cap, hg := s.hg.removeCurrent }
    else emit c s cap ((if cs then [0] else if ct then [sinkOf r] else []) ++ seg.map TmpPin.pin)
  else s

/-- the loop over the sorted pins (sequential_construction.cpp:374-385) -/
def largeLoop (c : NCfg) (r : Region) : SSt → Nat → List TmpPin → Nat → Nat → List TmpPin → SSt
  | s, last, seg, c0, c1, [] => addHyperedge c r s last seg c0 c1
  | s, last, seg, c0, c1, p :: ps =>
    if last ≠ p.e then
      largeLoop c r (addHyperedge c r s last seg c0 c1) p.e [p] (if p.blk = c.b0 then 1 else 0) (if p.blk = c.b1 then 1 else 0) ps
    else largeLoop c r s last (seg ++ [p]) (c0 + if p.blk = c.b0 then 1 else 0) (c1 + if p.blk = c.b1 then 1 else 0) ps

/-- `constructOptimizedForLargeHEs` (sequential_construction.cpp:248-389), hyperedges -/
def constructLarge (c : NCfg) (r : Region) : SSt :=
  match (largePins c r).insertionSort pinLe with
  | [] => SSt.empty
  | p :: ps => largeLoop c r SSt.empty p.e [] 0 0 (p :: ps)

/-! ### Parallel construction -/

/-- the entry of a hyperedge computed by `constructDefaultDeterministic` (parallel_construction.cpp:357-404): contributions to `total_cut` and
`non_removable_cut`, capacity and pins if the hyperedge is valid -/
structure Entry where
  total : Int
  nonrem : Int
  net : Option (Int × List Nat)

/-- parallel_construction.cpp:357-404 (and lines 223-279 of `constructDefault` without the search for identical nets) -/
def entryDefault (c : NCfg) (r : Region) (e : Nat) : Entry :=
  let cap := capacity c e
  if cap = 0 then ⟨0, 0, none⟩
  else
    let total := if 0 < c.H.pinsIn c.Φ e c.b0 ∧ 0 < c.H.pinsIn c.Φ e c.b1 then cap else 0
    let pins := (c.H.pins e).filterMap (nodeMap r)
    let cs := (c.H.pins e).any (fun v => (nodeMap r v).isNone && decide (c.Φ v = some c.b0))
    let ct := (c.H.pins e).any (fun v => (nodeMap r v).isNone && decide (c.Φ v = some c.b1))
    if cs && ct then ⟨total, cap, none⟩
    else if pins.isEmpty then ⟨total, 0, none⟩
    else
      let pins := if cs then pushFront pins 0 else if ct then pushFront pins (sinkOf r) else pins
      if pins.length > 1 then ⟨total, 0, some (cap, sortPins (sinkOf r) pins)⟩ else ⟨total, 0, none⟩

/-- the entry of hyperedge number `i` computed by `constructOptimizedForLargeHEsDeterministic` (parallel_construction.cpp:664-743, and lines 518-606 of
`constructOptimizedForLargeHEs`). `pins` are the collected pins in the order of their insertion; the pins of one hyperedge are in one bucket, and after sorting
the bucket they are consecutive and sorted: here they are filtered and sorted. -/
def entryLarge (c : NCfg) (r : Region) (pins : List TmpPin) (i : Nat) : Entry :=
  let e := r.hes.getD i 0
  let seg := (pins.filter (fun t => decide (t.e = i))).insertionSort pinLe
  let cap := capacity c e
  if cap = 0 then ⟨0, 0, none⟩
  else
    let cs := decide (seg.countP (fun t => decide (t.blk = c.b0)) < c.H.pinsIn c.Φ e c.b0)
    let ct := decide (seg.countP (fun t => decide (t.blk = c.b1)) < c.H.pinsIn c.Φ e c.b1)
    let total := if 0 < c.H.pinsIn c.Φ e c.b0 ∧ 0 < c.H.pinsIn c.Φ e c.b1 then cap else 0
    if cs && ct then ⟨total, cap, none⟩
    else
      let q := (if cs then [0] else if ct then [sinkOf r] else []) ++ seg.map TmpPin.pin
      if q.length > 1 then ⟨total, 0, some (cap, q)⟩ else ⟨total, 0, none⟩

/-- `HashedHyperedge` (parallel_construction.h) -/
structure Hashed where
  he : Nat
  hash : Nat
  size : Nat
  deriving DecidableEq

/-- order of a bucket (parallel_construction.cpp:911-913), as `l` not after `r` -/
def hashedLe (l r : Hashed) : Prop :=
  l.hash < r.hash ∨ (l.hash = r.hash ∧ (l.size < r.size ∨ (l.size = r.size ∧ l.he ≤ r.he)))

instance (l r : Hashed) : Decidable (hashedLe l r) := by unfold hashedLe; infer_instance

/-- temporary hyperedges: weight, pins, `valid_hyperedges` -/
structure Tmp where
  w : Nat → Int
  pins : Nat → List Nat
  valid : Nat → Bool

/-- the inner loop of `deduplicateParallelHyperedges` (parallel_construction.cpp:922-928) -/
def dedupInner (t : Tmp) (lhs h : Nat) : List Hashed → Int → (Nat → Bool) → Int × (Nat → Bool)
  | [], w, v => (w, v)
  | x :: l, w, v =>
    if h = x.hash then
      if t.pins lhs = t.pins x.he then dedupInner t lhs h l (w + t.w x.he) (set v x.he false) else dedupInner t lhs h l w v
    else (w, v)

/-- the outer loop (parallel_construction.cpp:916-930) -/
def dedupLoop : List Hashed → Tmp → Tmp
  | [], t => t
  | x :: l, t =>
    if t.valid x.he then
      let p := dedupInner t x.he x.hash l (t.w x.he) t.valid
      dedupLoop l { t with w := set t.w x.he p.1, valid := p.2 }
    else dedupLoop l t

/-- Result of the deterministic parallel construction (parallel_construction.cpp:306-457): `ins` is the order in which the valid hyperedges are inserted into the
concurrent bucket map, `bks` the order in which its buckets are deduplicated; `nm` is the number of buckets. `total_cut` and `non_removable_cut` are sums of
atomic additions. `ents` are the entries of the hyperedges by number. -/
def constructDet (c : NCfg) (ents : List Entry) (nm : Nat) (ins : List Nat) (bks : List Nat) : Nets :=
  let ent := fun i => (ents[i]?).bind Entry.net
  let t0 : Tmp := ⟨fun i => ((ent i).map Prod.fst).getD 0, fun i => ((ent i).map Prod.snd).getD [], fun i => (ent i).isSome⟩
  let hashed := ins.map (fun i => (⟨i, hashOf c (t0.pins i), (t0.pins i).length⟩ : Hashed))
  -- lines 410-415
  let t := bks.foldl (fun t b => dedupLoop ((hashed.filter (fun x => decide (x.hash % nm = b))).insertionSort hashedLe) t) t0
  -- lines 417-453: the hyperedges of consecutive ranges of numbers, one after the other
  (List.range ents.length).filterMap (fun i => if t.valid i then some (t.w i, t.pins i) else none)

/-- One step of a thread in the non-deterministic parallel construction (parallel_construction.cpp:221-294, 518-606; for graphs also in deterministic mode, lines
119-122): the hyperedge with entry `x` raises the capacity of an
identical hyperedge with number `t` that it has found, or it adds a new one. A thread may miss an identical hyperedge that is added at the same time.
Numbers are in the order of insertion here; the final order (by bucket) is a permutation. -/
def parStep (nets : Nets) (x : Entry) (found : Option Nat) : Option Nets :=
  match x.net, found with
  | some (cap, pins), some t => if (nets[t]?).map Prod.snd = some pins then some (nets.modify t (fun p => (p.1 + cap, p.2))) else none
  | some (cap, pins), none => some (nets ++ [(cap, pins)])
  | none, some _ => none
  | none, none => some nets

def parExec (nets : Nets) : List (Entry × Option Nat) → Option Nets
  | [] => some nets
  | a :: as => match parStep nets a.1 a.2 with
    | some nets' => parExec nets' as
    | none => none

/-! ### The flow problem and the flow refiner -/

/-- `whfc_to_node` (sequential_construction.cpp:147, 155, 160) -/
def nodesOf (r : Region) : List (Option Nat) := none :: r.n0.map some ++ none :: r.n1.map some

/-- node weights of the network (sequential_construction.cpp:149, 156-157, 161-162); `pw` are the block weights -/
def weightsOf (H : HG) (pw : Nat → Int) (b0 b1 : Nat) (r : Region) : List Int :=
  max 0 (pw b0 - r.w0) :: r.n0.map H.nw ++ max 0 (pw b1 - r.w1) :: r.n1.map H.nw

/-- `FlowProblem` (flow_common.h:57-64) and the flow hypergraph -/
structure Problem where
  source : Nat
  sink : Nat
  total : Int
  nonrem : Int
  w0 : Int
  w1 : Int
  weights : List Int
  nets : Nets

/-- `constructFlowHypergraphExplicit` (sequential_construction.cpp:91-123): the problem for hyperedges `nets` -/
def problem (H : HG) (pw : Nat → Int) (b0 b1 : Nat) (r : Region) (nets : Nets) (total nonrem : Int) : Problem :=
  let ws := max 0 (pw b0 - r.w0)
  let wt := max 0 (pw b1 - r.w1)
  let z := decide (ws = 0) || decide (wt = 0)
  { source := 0, sink := sinkOf r, total := if z then 0 else total, nonrem := if z then 0 else nonrem,
    w0 := ws + r.w0, w1 := wt + r.w1, weights := weightsOf H pw b0 b1 r, nets := nets }

/-- result of `runFlowCutter` if it succeeds: `isSource`, `flow_value`, `source_weight`, `target_weight` -/
structure Solution where
  isSource : Nat → Bool
  flow : Int
  ws : Int
  wt : Int

/-- the nodes of the network, their weights -/
def sideWeight (ws : List Int) (S : Nat → Bool) : Int := ((List.range ws.length).map (fun u => if S u then ws.getD u 0 else 0)).sum

/-- the flow algorithm: problem, maximum weights of the two sides, bound for the flow (flow_refiner.cpp:100-143) -/
abbrev Solver := Problem → Int → Int → Int → Option Solution

/-- `refineImpl` (flow_refiner.cpp:39-99): the moves and `expected_improvement`; `mx` are `max_part_weights` -/
def flowRefine (Φ : Assign) (b0 b1 : Nat) (mx : Nat → Int) (solve : Solver) (r : Region) (P : Problem) : List Mv × Int :=
  if P.total - P.nonrem > 0 then
    match solve P (max P.w0 (mx b0)) (max P.w1 (mx b1)) (P.total - P.nonrem) with
    | none => ([], 0)
    | some S =>
      let newCut := P.nonrem + S.flow
      let maxW := max S.ws S.wt
      if newCut < P.total ∨ (newCut = P.total ∧ maxW < max P.w0 P.w1) then
        ((List.range P.weights.length).filterMap (fun u =>
          match (nodesOf r).getD u none with
          | none => none
          | some v =>
            let dst := if S.isSource u then b0 else b1
            match Φ v with
            | none => none
            | some src => if src ≠ dst then some ⟨v, src, dst, 0⟩ else none), P.total - newCut)
      else ([], 0)
  else ([], 0)

/-- Parameters of the computation of moves for a pair of blocks in deterministic mode: fixed nodes, objective, size limits of the region (they depend on the block
weights), hash function, maximum block weights, flow algorithm. -/
structure RCfg where
  H : HG
  fixed : Nat → Bool
  o : Metrics.Obj
  mw0 : Assign → Nat → Nat → Int
  mw1 : Assign → Nat → Nat → Int
  maxDist : Nat
  maxPins : Nat
  hash : Nat → Nat
  mx : Nat → Int
  solve : Solver

/-- the region for a pair of blocks -/
def RCfg.grow (R : RCfg) (i j : Nat) (Φ : Assign) : Grow := ⟨R.H, R.fixed, Φ, i, j, R.mw0 Φ i j, R.mw1 Φ i j, R.maxDist, R.maxPins⟩

/-- The moves for blocks `i`, `j` (deterministic_flow_refinement_scheduler.cpp:103-116): region, network (hypergraphs, `constructDefaultDeterministic`), flow.
`sched` are the number of buckets and the scheduling decisions of the construction. The list of cut hyperedges only contains hyperedges of the hypergraph; the
result for other lists is arbitrary and set to no moves here. -/
def detFlow (R : RCfg) (sched : List Entry → Nat × List Nat × List Nat) (i j : Nat) (Φ : Assign) (es : List Nat) : List Mv :=
  if es.all (fun e => decide (e ∈ R.H.edges)) then
    match construct (R.grow i j Φ) es with
    | none => []
    | some r =>
      let c : NCfg := ⟨R.H, Φ, i, j, R.o, R.hash, 1⟩
      let ents := r.hes.map (entryDefault c r)
      let s := sched ents
      (flowRefine Φ i j R.mx R.solve r (problem R.H (R.H.blockWeight Φ) i j r (constructDet c ents s.1 s.2.1 s.2.2)
        (ents.map Entry.total).sum (ents.map Entry.nonrem).sum)).1
  else []

end FNet
end Verif
