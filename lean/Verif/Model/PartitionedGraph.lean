import Verif.Model.PartitionedHypergraph
/-!
# Model: partitioned graphs and concurrent node moves on them

Source: `mt-kahypar/datastructures/partitioned_graph.h` (`changeNodePartImpl` 1106-1160,
`synchronizeMoveOnEdge` 1182-1222, `resetEdgeSynchronization` 765-769), the graph cut gain cache
(`gains/cut_for_graphs/cut_gain_cache_for_graphs.cpp` 36-84) and the attributed gains
(`cut_attributed_gains_for_graphs.h`).

A partitioned graph stores no pin counts: a move takes the lock of each incident edge, and a record
`EdgeMove` per undirected edge remembers the blocks of moved end nodes, because `_part_ids[u]` is
only written after all edges are processed.

Every node is its own process (no two calls move the same node at the same time).  One action is one
atomic operation: `add_fetch`/`fetch_sub` on a block weight, the relaxed load of the block of the
other node *before* the lock is taken, the critical section, one `fetch_add` on the gain cache, the
final store to `_part_ids[u]`.  Simplifications: sequential consistency, the 32-bit version counter
is unbounded, no self loops (static graphs have none: static_graph.h:653-655).
-/
namespace Verif

/-- A graph with an undirected edge list (`edges`, `ends`, `w`) and its adjacency array: `inc u` are
the directed edge ids leaving `u`, `tgt` the target and `uid` the undirected edge of a directed edge
(static_graph.h: `edgeTarget`, `uniqueEdgeID`, `edgeWeight`). -/
structure AGraph where
  nodes : List Nat
  nw : Nat → Int
  edges : List Nat
  ends : Nat → Nat × Nat
  w : Nat → Int
  inc : Nat → List Nat
  tgt : Nat → Nat
  uid : Nat → Nat
  ew : Nat → Int

/-- `EdgeMove` (partitioned_graph.h:142-152); `none` is `kInvalidPartition` -/
structure EdgeMove where
  small : Option Nat
  large : Option Nat
  version : Nat

/-- the entry for end node `u` of an edge `{u, v}` (partitioned_graph.h:1214-1219) -/
def EdgeMove.entry (m : EdgeMove) (u v : Nat) : Option Nat := if u < v then m.small else m.large

/-- `SynchronizedEdgeUpdate` as handed to the delta functions (partitioned_graph.h:1136-1143) -/
structure GUpdate where
  he : Nat
  src : Nat
  dst : Nat
  weight : Int
  other : Option Nat
  srcAfter : Nat
  dstAfter : Nat

/-- `GraphCutAttributedGains::gain` (cut_attributed_gains_for_graphs.h:43-46) -/
def GUpdate.gain (s : GUpdate) : Int :=
  (if s.dstAfter = 1 then s.weight else 0) + (if s.srcAfter = 0 then -s.weight else 0)

/-- `incident_weight_index` (cut_gain_cache_for_graphs.h: `u * _k + p`) -/
def gIdx (kc u b : Nat) : Nat := u * kc + b

/-- `GraphCutGainCache::deltaGainUpdate` (cut_gain_cache_for_graphs.cpp:67-77) -/
def gDelta (G : AGraph) (kc : Nat) (s : GUpdate) : List (Nat × Int) :=
  [(gIdx kc (G.tgt s.he) s.src, -s.weight), (gIdx kc (G.tgt s.he) s.dst, s.weight)]

/-- `GraphCutGainCache::initializeGainCache` (cut_gain_cache_for_graphs.cpp:37-61): the directed edges
`(source, edge)` in an arbitrary order, with atomic additions -/
def gInit (G : AGraph) (kc : Nat) (part : Assign) (order : List (Nat × Nat)) : Nat → Int :=
  order.foldl (fun (c : Nat → Int) p => fun i =>
    if i = gIdx kc p.1 ((part (G.tgt p.2)).getD 0) then c i + G.ew p.2 else c i) (fun _ => 0)

/-- program counter of the call moving a node -/
inductive GProc where
  | idle
  /-- the weight check succeeded, next: `_part_weights[from].fetch_sub`; `sync` distinguishes
  `changeNodePart` from `changeNodePartNoSync` -/
  | accepted (src dst : Nat) (sync : Bool)
  /-- in the loop over the incident edges: gain cache updates to be done for the last edge, the edge
  for which the block of the other node has been loaded, and the edges not started yet -/
  | run (src dst : Nat) (pend : List (Nat × Int)) (loaded : Option (Nat × Option Nat)) (rest : List Nat)
  /-- the weight check failed, next: `_part_weights[to].fetch_sub` -/
  | rejected (dst : Nat)

/-- shared state; `dirty` is `_edge_sync_is_dirty` (a flag the code maintains in debug mode), `log`
collects the updates of all calls -/
structure GSt where
  part : Assign
  wt : Nat → Int
  sync : Nat → EdgeMove
  version : Nat
  dirty : Bool
  cache : Nat → Int
  log : List GUpdate
  proc : Nat → GProc

inductive GAct where
  /-- call `changeNodePart` (`sync`) or `changeNodePartNoSync` on node `u` -/
  | start (u dst : Nat) (lim : Int) (sync : Bool)
  /-- next atomic step of the call moving `u` -/
  | tick (u : Nat)
  /-- `resetEdgeSynchronization` -/
  | resetSync

namespace GSt

def setProc (s : GSt) (u : Nat) (p : GProc) : Nat → GProc := fun v => if v = u then p else s.proc v

def isIdle (s : GSt) (u : Nat) : Bool := match s.proc u with | .idle => true | _ => false

/-- no call is active -/
def quiescent (G : AGraph) (s : GSt) : Bool := G.nodes.all (fun u => s.isIdle u)

/-- The critical section of `synchronizeMoveOnEdge` (partitioned_graph.h:1197-1212): the block of the
other node and the new record.  `bv` was loaded before the lock was taken. -/
def critical (m : EdgeMove) (version : Nat) (u v : Nat) (dst : Nat) (bv : Option Nat) : Option Nat × EdgeMove :=
  let mv := m.entry v u
  let blockV := if mv ≠ none ∧ m.version = version then mv else bv
  let mv' := if mv ≠ none ∧ m.version = version then mv
             else if m.version ≠ version then none else mv
  (blockV, if u < v then { small := some dst, large := mv', version := version }
           else { small := mv', large := some dst, version := version })

/-- Contract of the callers: synchronized moves need a call of `resetEdgeSynchronization` after
unsynchronized ones (assertion at partitioned_graph.h:1128), and the two kinds are not mixed. -/
def mayStart (G : AGraph) (s : GSt) (sync : Bool) : Bool := if sync then !s.dirty else s.dirty || s.quiescent G

/-- one atomic step; `none` if the action is not enabled (the caller violates the contract) -/
def step (G : AGraph) (k kc : Nat) (s : GSt) : GAct → Option GSt
  | .start u dst lim sync =>
    if u ∈ G.nodes ∧ dst < k ∧ s.isIdle u ∧ s.mayStart G sync then
      match s.part u with
      | some src =>
        if src ≠ dst then
          -- `to_weight_after = _part_weights[to].add_fetch(weight)`
          let wt1 := addWt s.wt dst (G.nw u)
          if wt1 dst ≤ lim then
            some { s with wt := wt1, proc := s.setProc u (.accepted src dst sync), dirty := s.dirty || !sync }
          else some { s with wt := wt1, proc := s.setProc u (.rejected dst) }
        else none
      | none => none
    else none
  | .tick u =>
    match s.proc u with
    | .idle => none
    | .accepted src dst sync =>
      some { s with wt := addWt s.wt src (-G.nw u),
                    proc := s.setProc u (.run src dst [] none (if sync then G.inc u else [])) }
    | .run src dst ((i, a) :: t) l rest =>
      some { s with cache := fun j => if j = i then s.cache j + a else s.cache j,
                    proc := s.setProc u (.run src dst t l rest) }
    | .run src dst [] (some (e, bv)) rest =>
      let r := critical (s.sync (G.uid e)) s.version u (G.tgt e) dst bv
      let upd : GUpdate := { he := e, src := src, dst := dst, weight := G.ew e, other := r.1
                             srcAfter := if r.1 = some src then 1 else 0
                             dstAfter := if r.1 = some dst then 2 else 1 }
      some { s with sync := fun x => if x = G.uid e then r.2 else s.sync x,
                    log := s.log ++ [upd],
                    proc := s.setProc u (.run src dst (gDelta G kc upd) none rest) }
    | .run src dst [] none (e :: rest) =>
      some { s with proc := s.setProc u (.run src dst [] (some (e, s.part (G.tgt e))) rest) }
    | .run _ dst [] none [] =>
      some { s with part := s.part.put u dst, proc := s.setProc u .idle }
    | .rejected dst =>
      some { s with wt := addWt s.wt dst (-G.nw u), proc := s.setProc u .idle }
  | .resetSync =>
    if s.quiescent G = true then some { s with version := s.version + 1, dirty := false } else none

/-- execute a schedule -/
def exec (G : AGraph) (k kc : Nat) (s : GSt) : List GAct → Option GSt
  | [] => some s
  | a :: as => match step G k kc s a with
    | some s' => exec G k kc s' as
    | none => none

/-- State after the constructor (partitioned_graph.h:176-196) and an initial assignment with
`setOnlyNodePart` + `initializePartition` (754-757, 1162-1177), with gain cache `cache`. -/
def create (G : AGraph) (part : Assign) (cache : Nat → Int) : GSt :=
  { part := part
    wt := fun b => G.nodes.foldl (fun acc v => if part v = some b then acc + G.nw v else acc) 0
    sync := fun _ => { small := none, large := none, version := 0 }
    version := 0, dirty := false, cache := cache, log := [], proc := fun _ => .idle }

end GSt
end Verif
