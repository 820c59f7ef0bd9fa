import Verif.Model.PartitionedHypergraph
/-!
# Model: removal and restoration of degree-zero nodes, single-pin and large hyperedges

Source: `mt-kahypar/partition/preprocessing/sparsification/degree_zero_hn_remover.h`, `large_he_remover.h`,
`mt-kahypar/partition/partitioner.cpp` (`sanitize`, post-processing), `mt-kahypar/datastructures/static_hypergraph.h`
(`removeEdge`, ... `restoreLargeEdge`), `partitioned_hypergraph.h` (`restoreLargeEdge`, `restoreSinglePinEdge`,
`restoreDegreeZeroHypernode`).
-/
namespace Verif
namespace Prep

/-- Members of `StaticHypergraph` (static_hypergraph.h:975-1010). `nets u` is the part of `_incident_nets` from
`firstEntry()` of node `u` to that of node `u + 1`, `size u` the number of its active entries. -/
structure SHG where
  n : Nat
  m : Nat
  pins : Nat → List Nat
  nw : Nat → Int
  ew : Nat → Int
  /-- `fixedVertexBlock` -/
  fixed : Nat → Option Nat
  nets : Nat → List Nat
  size : Nat → Nat
  nodeOn : Nat → Bool
  edgeOn : Nat → Bool
  /-- `_num_removed_hypernodes` -/
  remN : Nat
  /-- `_num_removed_hyperedges` -/
  remE : Nat

/-- the hypergraph seen through `nodes()`, `edges()`, `pins(e)`, `incidentEdges(u)`: enabled nodes and hyperedges only -/
def SHG.toHG (s : SHG) : HG where
  nodes := (List.range s.n).filter s.nodeOn
  edges := (List.range s.m).filter s.edgeOn
  pins := s.pins
  inc u := (s.nets u).take (s.size u)
  nw := s.nw
  ew := s.ew

/-- `swap(l[i], l[j])` -/
def swapAt (l : List Nat) (i j : Nat) : List Nat := (l.set i (l.getD j 0)).set j (l.getD i 0)

/-- update of one entry of an array -/
def upd {α : Type} (f : Nat → α) (i : Nat) (x : α) : Nat → α := fun j => if j = i then x else f j

/-- `removeIncidentEdgeFromHypernode` (static_hypergraph.h:931-946) -/
def SHG.removeInc (e : Nat) (s : SHG) (u : Nat) : SHG :=
  { s with
    nets := upd s.nets u (swapAt (s.nets u) (((s.nets u).take (s.size u)).idxOf e) (s.size u - 1))
    size := upd s.size u (s.size u - 1) }

/-- `insertIncidentEdgeToHypernode` (static_hypergraph.h:949-968) -/
def SHG.insertInc (e : Nat) (s : SHG) (u : Nat) : SHG :=
  { s with
    nets := upd s.nets u (swapAt (s.nets u) (s.size u) (s.size u + ((s.nets u).drop (s.size u)).idxOf e))
    size := upd s.size u (s.size u + 1) }

/-- `removeEdge` (static_hypergraph.h:771-778), `removeLargeEdge` (799-809): `order` is the order in which the pins are
processed. The iterations of the parallel loop access different nodes. -/
def SHG.removeEdge (s : SHG) (e : Nat) (order : List Nat) : SHG :=
  let s := order.foldl (SHG.removeInc e) s
  { s with remE := s.remE + 1, edgeOn := upd s.edgeOn e false }

/-- `restoreEdge` (static_hypergraph.h:783-789), `restoreLargeEdge` (814-823) -/
def SHG.restoreEdge (s : SHG) (e : Nat) (order : List Nat) : SHG :=
  order.foldl (SHG.insertInc e) { s with edgeOn := upd s.edgeOn e true }

/-- `removeHypernode` (static_hypergraph.h:614-617) -/
def SHG.removeNode (s : SHG) (u : Nat) : SHG := { s with nodeOn := upd s.nodeOn u false, remN := s.remN + 1 }

/-- `restoreDegreeZeroHypernode` (static_hypergraph.h:626-629) -/
def SHG.restoreNode (s : SHG) (u : Nat) : SHG := { s with nodeOn := upd s.nodeOn u true }

/-! ### Removal -/

/-- state of the loop of `removeDegreeZeroHypernodes` -/
structure DZ where
  s : SHG
  removed : List Nat
  /-- left by `break` -/
  stop : Bool

/-- one iteration (degree_zero_hn_remover.h:59-68); `cur` is `current_num_nodes`. The iterator skips disabled nodes. -/
def dzStep (limit cur : Nat) (x : DZ) (u : Nat) : DZ :=
  if x.stop || !x.s.nodeOn u then x
  else if cur - x.removed.length ≤ limit then { x with stop := true }
  else if x.s.size u = 0 ∧ x.s.fixed u = none then { x with s := x.s.removeNode u, removed := x.removed ++ [u] }
  else x

/-- `removeDegreeZeroHypernodes` (degree_zero_hn_remover.h:55-70): hypergraph and `_removed_hns` -/
def removeDegreeZero (limit : Nat) (s : SHG) : DZ :=
  (List.range s.n).foldl (dzStep limit (s.n - s.remN)) ⟨s, [], false⟩

/-- state of the loop of `removeSinglePinAndLargeHyperedges` -/
structure ER where
  s : SHG
  large : List Nat
  single : List Nat

/-- one iteration (large_he_remover.h:59-69) -/
def erStep (thr : Nat) (order : Nat → List Nat) (x : ER) (e : Nat) : ER :=
  if x.s.edgeOn e then
    if (x.s.pins e).length = 1 then { x with s := x.s.removeEdge e (x.s.pins e), single := x.single ++ [e] }
    else if (x.s.pins e).length > thr then { x with s := x.s.removeEdge e (order e), large := x.large ++ [e] }
    else x
  else x

/-- `removeSinglePinAndLargeHyperedges` (large_he_remover.h:55-74); `order e` is the order of the parallel loop over the
pins of a large hyperedge -/
def removeEdges (thr : Nat) (order : Nat → List Nat) (s : SHG) : ER :=
  let x := (List.range s.m).foldl (erStep thr order) ⟨s, [], []⟩
  { x with large := x.large.reverse }

/-- result of `sanitize` (partitioner.cpp:149-185): the hypergraph that is partitioned, `_removed_hns`, `_removed_hes`,
`_removed_single_pin_hes` -/
structure Reduced where
  s : SHG
  hns : List Nat
  large : List Nat
  single : List Nat

def sanitize (limit thr : Nat) (order : Nat → List Nat) (s : SHG) : Reduced :=
  let d := removeDegreeZero limit s
  let x := removeEdges thr order d.s
  ⟨x.s, d.removed, x.large, x.single⟩

/-! ### Restoration -/

variable {σ : Type}

/-- The pin counts of a restored large hyperedge (partitioned_hypergraph.h:455-475): `chunks` are the pins counted by the
different threads. -/
def fillEdge (C : ConInfo σ) (k : Nat) (part : Assign) (c : σ) (e : Nat) (chunks : List (List Nat)) : σ :=
  let cnt := fun b => (chunks.map (fun ch => PHG.localCounts part ch b)).sum
  (List.range k).foldl (fun c b => if cnt b > 0 then C.addBlock (C.setPC c e b (cnt b)) e b else c) c

/-- `restoreLargeEdge` (partitioned_hypergraph.h:452-477) -/
def restoreLarge (C : ConInfo σ) (k : Nat) (order : Nat → List Nat) (chunks : Nat → List (List Nat)) (x : SHG × PHG σ) (e : Nat) :
    SHG × PHG σ :=
  (x.1.restoreEdge e (order e), { x.2 with con := fillEdge C k x.2.part x.2.con e (chunks e) })

/-- `restoreSinglePinEdge` (partitioned_hypergraph.h:482-491). A pin without block would be an invalid index; the model
then leaves the counts unchanged. -/
def restoreSingle (C : ConInfo σ) (x : SHG × PHG σ) (e : Nat) : SHG × PHG σ :=
  let s := x.1.restoreEdge e (x.1.pins e)
  (s, match x.2.part ((s.pins e).headD 0) with
    | some b => { x.2 with con := C.addBlock (C.setPC x.2.con e b 1) e b }
    | none => x.2)

/-- `restoreSinglePinAndLargeHyperedges` (large_he_remover.h:92-108), without the log message -/
def restoreEdges (C : ConInfo σ) (k : Nat) (order : Nat → List Nat) (chunks : Nat → List (List Nat)) (large single : List Nat)
    (x : SHG × PHG σ) : SHG × PHG σ :=
  single.foldl (restoreSingle C) (large.foldl (restoreLarge C k order chunks) x)

/-- the loop that moves the first block to its new position (degree_zero_hn_remover.h:95-100): `a` is `blocks[i]`, the list are
the blocks behind it -/
def bubbleIn (d : Nat → Int) (a : Nat) : List Nat → List Nat
  | [] => [a]
  | b :: l => if d a > d b then b :: bubbleIn d a l else a :: b :: l

/-- the whole loop, for an arbitrary list of blocks -/
def bubble (d : Nat → Int) : List Nat → List Nat
  | [] => []
  | a :: l => bubbleIn d a l

/-- state of the loop of `restoreDegreeZeroHypernodes` -/
structure Pack (σ : Type) where
  s : SHG
  P : PHG σ
  blocks : List Nat

/-- one iteration (degree_zero_hn_remover.h:92-101); `restoreDegreeZeroHypernode` enables the node and calls
`setNodePart` -/
def packStep (C : ConInfo σ) (maxw : Nat → Int) (x : Pack σ) (u : Nat) : Pack σ :=
  let s := x.s.restoreNode u
  let P := PHG.setNodePart C s.toHG x.P u (x.blocks.headD 0)
  ⟨s, P, bubble (fun b => P.wt b - maxw b) x.blocks⟩

/-- `restoreDegreeZeroHypernodes` (degree_zero_hn_remover.h:73-103). `hns` and `blocks` are the results of the two sorts. -/
def restoreNodes (C : ConInfo σ) (maxw : Nat → Int) (hns blocks : List Nat) (x : SHG × PHG σ) : Pack σ :=
  hns.foldl (packStep C maxw) ⟨x.1, x.2, blocks⟩

/-- order of the sort of the nodes (degree_zero_hn_remover.h:76-79) -/
def heavier (nw : Nat → Int) (u v : Nat) : Prop := nw u > nw v ∨ (nw u = nw v ∧ u > v)

/-- post-processing (partitioner.cpp:370-371 and 432-433): `order` and `chunks` describe the schedule of the parallel loops -/
def restore (C : ConInfo σ) (k : Nat) (maxw : Nat → Int) (order : Nat → List Nat) (chunks : Nat → List (List Nat))
    (hns blocks : List Nat) (r : Reduced) (P : PHG σ) : Pack σ :=
  restoreNodes C maxw hns blocks (restoreEdges C k order chunks r.large r.single (r.s, P))

end Prep
end Verif
