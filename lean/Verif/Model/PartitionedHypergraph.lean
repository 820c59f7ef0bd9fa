import Verif.Model.ConnectivityInfo
import Verif.Spec.Hypergraph
/-!
# Model of `PartitionedHypergraph` (sequential view of each operation)

Source: `mt-kahypar/datastructures/partitioned_hypergraph.h`.  The interleaved execution of
concurrent moves is modelled separately in `Verif/Model/ConcurrentMoves.lean`.
-/
namespace Verif

/-- The mutable members `_part_ids`, `_part_weights`, `_con_info`
(partitioned_hypergraph.h:1280-1306); `none` is `kInvalidPartition`. -/
structure PHG (σ : Type) where
  part : Assign
  wt : Nat → Int
  con : σ

/-- `fetch_add` / `fetch_sub` on one block weight -/
def addWt (wt : Nat → Int) (b : Nat) (x : Int) : Nat → Int :=
  fun b' => if b' = b then wt b' + x else wt b'

/-- `SynchronizedEdgeUpdate` (synchronized_edge_update.h), the fields read by the km1, cut and
soed gain computations. -/
structure EdgeUpdate where
  he : Nat
  src : Nat
  dst : Nat
  weight : Int
  size : Nat
  srcAfter : Nat
  dstAfter : Nat

namespace PHG
variable {σ : Type} (C : ConInfo σ) (H : HG) (k : Nat)

/-- constructor (partitioned_hypergraph.h:104-118) -/
def init (con : σ) : PHG σ := { part := fun _ => none, wt := fun _ => 0, con := con }

/-- `setOnlyNodePart` (partitioned_hypergraph.h:572-576) -/
def setOnlyNodePart (P : PHG σ) (u p : Nat) : PHG σ := { P with part := P.part.put u p }

/-- `setNodePart` (partitioned_hypergraph.h:578-584) -/
def setNodePart (P : PHG σ) (u p : Nat) : PHG σ :=
  { part := P.part.put u p
    wt := addWt P.wt p (H.nw u)
    con := (H.inc u).foldl (fun c e => (C.incBlock c e p).2) P.con }

/-- `updatePinCountOfHyperedge` (partitioned_hypergraph.h:1234-1253), without the lock and the
call of the delta function. -/
def updateEdge (c : σ) (e src dst : Nat) : EdgeUpdate × σ :=
  let d := C.decBlock c e src
  let i := C.incBlock d.2 e dst
  ({ he := e, src := src, dst := dst, weight := H.ew e, size := (H.pins e).length,
     srcAfter := d.1, dstAfter := i.1 }, i.2)

/-- the loop over the incident hyperedges (partitioned_hypergraph.h:613-615); collects the
updates handed to the delta function -/
def updateEdges (src dst : Nat) : σ → List Nat → List EdgeUpdate × σ
  | c, [] => ([], c)
  | c, e :: es =>
    let r := updateEdge C H c e src dst
    let rs := updateEdges src dst r.2 es
    (r.1 :: rs.1, rs.2)

/-- `changeNodePart` (partitioned_hypergraph.h:586-621), executed without interference.
Returns the result, the edge updates reported to the delta function, and the new state. -/
def changeNodePart (P : PHG σ) (u src dst : Nat) (maxTo : Int) :
    Bool × List EdgeUpdate × PHG σ :=
  let wu := H.nw u
  let wt1 := addWt P.wt dst wu
  if wt1 dst ≤ maxTo then
    let r := updateEdges C H src dst P.con (H.inc u)
    (true, r.1, { part := P.part.put u dst, wt := addWt wt1 src (-wu), con := r.2 })
  else
    (false, [], { P with wt := addWt wt1 dst (-wu) })

/-- `resetPartition` (partitioned_hypergraph.h:788-794) -/
def resetPartition (P : PHG σ) : PHG σ :=
  { part := fun _ => none, wt := fun _ => 0, con := C.reset P.con }

/-- One task of `initializeBlockWeights` (partitioned_hypergraph.h:1180-1188): the local
weights `pws` of a chunk of nodes. Nodes without block would index out of bounds in C++; the
model skips them and callers guarantee that all nodes are assigned. -/
def chunkWeights (part : Assign) (chunk : List Nat) : Nat → Int :=
  chunk.foldl (fun pws u => match part u with
    | some b => addWt pws b (H.nw u)
    | none => pws) (fun _ => 0)

/-- `initializeBlockWeights` (partitioned_hypergraph.h:1173-1196).  `order b` is the order in
which the tasks' atomic `fetch_add`s hit the weight of block `b`. -/
def initBlockWeights (P : PHG σ) (order : Nat → List (List Nat)) : Nat → Int :=
  fun b => (order b).foldl (fun acc chunk => acc + chunkWeights H P.part chunk b) (P.wt b)

/-- local pin counts of one hyperedge (partitioned_hypergraph.h:1205-1207) -/
def localCounts (part : Assign) (pins : List Nat) : Nat → Nat :=
  pins.foldl (fun cnt v => match part v with
    | some b => fun b' => if b' = b then cnt b' + 1 else cnt b'
    | none => cnt) (fun _ => 0)

/-- pin counts of one hyperedge (partitioned_hypergraph.h:1204-1217) -/
def initEdge (part : Assign) (c : σ) (e : Nat) : σ :=
  let cnt := localCounts part (H.pins e)
  (List.range k).foldl (fun c p =>
    if cnt p > 0 then C.setPC (C.addBlock c e p) e p (cnt p) else c) c

/-- `initializePinCountInPart` (partitioned_hypergraph.h:1198-1222); hyperedges in an arbitrary
order `eorder`. -/
def initPinCounts (P : PHG σ) (eorder : List Nat) : σ :=
  eorder.foldl (initEdge C H k P.part) P.con

/-- `initializePartition` (partitioned_hypergraph.h:777-785) -/
def initializePartition (P : PHG σ) (order : Nat → List (List Nat)) (eorder : List Nat) : PHG σ :=
  { part := P.part
    wt := initBlockWeights H P order
    con := initPinCounts C H k P eorder }

/-- Building a partitioned hypergraph from block ids: `resetPartition`, `setOnlyNodePart` for
all nodes (`norder` is the order of the parallel loop), `initializePartition`
(lib_helper_functions.h `create_partitioned_hypergraph`). -/
def build (P : PHG σ) (Φ : Nat → Nat) (norder : List Nat) (order : Nat → List (List Nat))
    (eorder : List Nat) : PHG σ :=
  let P1 := norder.foldl (fun P u => setOnlyNodePart P u (Φ u)) (resetPartition C P)
  initializePartition C H k P1 order eorder

/-- `numIncidentCutHyperedges` (partitioned_hypergraph.h:722-730) -/
def numIncidentCut (P : PHG σ) (u : Nat) : Nat :=
  (H.inc u).foldl (fun n e => if C.connectivity P.con e > 1 then n + 1 else n) 0

/-- `isBorderNode` (partitioned_hypergraph.h:705-720), `HIGH_DEGREE_THRESHOLD = 100000` -/
def isBorderNode (P : PHG σ) (u : Nat) : Bool :=
  if (H.inc u).length ≤ 100000 then (H.inc u).any (fun e => C.connectivity P.con e > 1)
  else false

end PHG
end Verif
