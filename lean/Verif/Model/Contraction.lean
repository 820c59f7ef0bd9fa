import Verif.Model.StaticHypergraph
/-!
# Model: `StaticHypergraph::contract` (static_hypergraph.cpp:63-496)

The function is modelled stage by stage on the temporary buffers.  The buffers are reused between
levels, so their initial content `buf` is arbitrary.  Every `parallel_for` runs its iterations in the
arbitrary order listed in the schedule.  Simplifications: ids and weights are unbounded numbers; an
iteration of a parallel loop is one atomic step (iterations write disjoint cells apart from the
atomic counters).
-/
namespace Verif

/-- `ContractedHyperedgeInformation` (static_hypergraph.cpp:46-51) -/
structure CInfo where
  he : Nat
  hash : Nat
  size : Nat
  valid : Bool

/-- The comparator `std::tie(hash, size, he)` (static_hypergraph.cpp:333-336) -/
def CInfo.le (a b : CInfo) : Bool :=
  decide (a.hash < b.hash) ||
    (decide (a.hash = b.hash) &&
      (decide (a.size < b.size) || (decide (a.size = b.size) && decide (a.he ≤ b.he))))

/-- footprint of a contracted hyperedge (static_hypergraph.cpp:156, 193-196): 32-bit squares
summed up in a `size_t`, seed `kEdgeHashSeed = 42` -/
def footprint (l : List Nat) : Nat :=
  l.foldl (fun h x => (h + (x * x) % 2 ^ 32) % 2 ^ 64) 42

/-- The order in which the parallel loops run their iterations, and the number of buckets of the
concurrent bucket maps (`2 ^ logBuckets`, concurrent_bucket_map.h:67-71). -/
structure CSched where
  mark : List Nat
  agg : List Nat
  edges : List Nat
  copy : List Nat
  dedup : List Nat
  logBuckets : Nat
  buckets : List Nat
  netInsert : Nat → List Nat
  netBuckets : Nat → List Nat
  writeEdges : List Nat
  remap : List Nat
  writeNodes : List Nat
  threshold : Nat
  deterministic : Bool

/-- The reused temporary buffers (static_hypergraph.h, `TmpContractionBuffer`), and the freshly
allocated, uninitialised arrays of the coarse hypergraph -/
structure CBuf where
  incidenceArray : Nat → Nat
  incidentNets : Nat → Nat
  heFirst : Nat → Nat
  heSize : Nat → Nat
  heEnabled : Nat → Bool
  heWeight : Nat → Int
  valid : Nat → Nat
  newFirst : Nat → Nat
  newSize : Nat → Nat
  newEnabled : Nat → Bool
  newWeight : Nat → Int
  newIncidenceArray : Nat → Nat
  newIncidentNets : Nat → Nat

namespace Contract
open SMap (wr)

/-! ### Stage 1: coarse ids -/

/-- `mapping[communities[hn]] = 1` for all enabled nodes (static_hypergraph.cpp:97-102) -/
def mapping (com : Nat → Nat) (order : List Nat) : Nat → Nat :=
  order.foldl (fun mp hn => wr mp (com hn) 1) (fun _ => 0)

/-- the remapped community of a node: its id in the coarse hypergraph
(static_hypergraph.cpp:105-116) -/
def coarse (H : SHG) (com : Nat → Nat) (mp : Nat → Nat) (hn : Nat) : Nat :=
  if H.hnEnabled hn then psum mp (com hn) else kInvalid

/-- aggregation of node weights and degrees with atomic additions (static_hypergraph.cpp:133-140) -/
def aggregate (H : SHG) (cid : Nat → Nat) (order : List Nat) : (Nat → Int) × (Nat → Nat) :=
  order.foldl (fun st hn =>
    (wr st.1 (cid hn) (st.1 (cid hn) + H.hnWeight hn), wr st.2 (cid hn) (st.2 (cid hn) + H.hnSize hn)))
    (fun _ => 0, fun _ => 0)

/-! ### Stage 2a: contract hyperedges -/

/-- removal of trailing `kInvalidHypernode` entries (static_hypergraph.cpp:183-185) -/
def stripInvalid (l : List Nat) : List Nat :=
  (l.reverse.dropWhile (fun x => decide (x = kInvalid))).reverse

/-- temporary hyperedges, pins, validity flags and buckets -/
structure EdgeSt where
  arr : Nat → Nat
  first : Nat → Nat
  size : Nat → Nat
  enabled : Nat → Bool
  weight : Nat → Int
  valid : Nat → Nat
  bucket : Nat → List CInfo

/-- one iteration of the parallel loop over the hyperedges (static_hypergraph.cpp:161-208) and
`ConcurrentBucketMap::insert` (concurrent_bucket_map.h:116-122) -/
def contractEdge (H : SHG) (cid : Nat → Nat) (logBuckets : Nat) (st : EdgeSt) (he : Nat) : EdgeSt :=
  if H.heEnabled he then
    let sorted := sortIds ((readSeg H.incidenceArray (H.heFirst he) (H.heSize he)).map cid)
    let pins := stripInvalid (uniq sorted)
    let arr := writeSeg (writeSeg st.arr (H.heFirst he) sorted) (H.heFirst he) (uniq sorted)
    let st1 : EdgeSt := { st with
      arr := arr
      first := wr st.first he (H.heFirst he)
      size := wr st.size he pins.length
      enabled := wr st.enabled he true
      weight := wr st.weight he (H.heWeight he)
      valid := wr st.valid he 1 }
    if pins.length > 1 then
      let fp := footprint (readSeg arr (H.heFirst he) pins.length)
      let b := fp &&& (2 ^ logBuckets - 1)
      let info : CInfo := { he := he, hash := fp, size := pins.length, valid := true }
      { st1 with bucket := wr st1.bucket b (st1.bucket b ++ [info]) }
    else
      { st1 with valid := wr st1.valid he 0, enabled := wr st1.enabled he false }
  else { st with valid := wr st.valid he 0 }

/-- the parallel loop over all hyperedges (static_hypergraph.cpp:159-208) -/
def contractEdges (H : SHG) (cid : Nat → Nat) (logBuckets : Nat) (buf : CBuf) (order : List Nat) : EdgeSt :=
  order.foldl (contractEdge H cid logBuckets)
    { arr := buf.incidenceArray, first := buf.heFirst, size := buf.heSize, enabled := buf.heEnabled,
      weight := buf.heWeight, valid := buf.valid, bucket := fun _ => [] }

/-! ### Stage 2b: contract incident nets -/

/-- copy the incident nets of every node behind those of its cluster, position reserved with
`fetch_add` (static_hypergraph.cpp:225-235) -/
def copyNets (H : SHG) (cid : Nat → Nat) (start : Nat → Nat) (nets : Nat → Nat) (order : List Nat) :
    (Nat → Nat) × (Nat → Nat) :=
  order.foldl (fun st hn =>
    (writeSeg st.1 (start (cid hn) + st.2 (cid hn)) (readSeg H.incidentNets (H.hnFirst hn) (H.hnSize hn)),
      wr st.2 (cid hn) (st.2 (cid hn) + H.hnSize hn)))
    (nets, fun _ => 0)

/-- duplicate removal in the incident nets of a high degree vertex through the bucket map:
insertion in arbitrary order, buckets written out in arbitrary order, sorted at the end in
deterministic mode (static_hypergraph.cpp:264-301).  `l` is the segment of the vertex. -/
def dedupHighDegree (logBuckets : Nat) (insertOrder bucketOrder : List Nat) (deterministic : Bool)
    (l : List Nat) : List Nat :=
  let inserted := insertOrder.map (fun i => l.getD i 0)
  let out := (bucketOrder.map (fun b =>
    uniq (sortIds (inserted.filter (fun he => decide (he &&& (2 ^ logBuckets - 1) = b)))))).flatten
  if deterministic then sortIds out else out

/-- duplicate removal of one coarse vertex (static_hypergraph.cpp:240-262): sort + unique below the
threshold, bucket map above; returns the new segment content -/
def dedupNets (s : CSched) (c : Nat) (l : List Nat) : List Nat :=
  if l.length ≤ s.threshold then uniq (sortIds l)
  else dedupHighDegree s.logBuckets (s.netInsert c) (s.netBuckets c) s.deterministic l

/-- duplicate removal for all coarse vertices, each on its own segment of the temporary incident
net array; second component: sizes of the temporary hypernodes -/
def dedupAll (s : CSched) (start : Nat → Nat) (nets : Nat → Nat) (size : Nat → Nat) :
    (Nat → Nat) × (Nat → Nat) :=
  s.dedup.foldl (fun st c =>
    let l := dedupNets s c (readSeg st.1 (start c) (start (c + 1) - start c))
    (writeSeg st.1 (start c) l, wr st.2 c l.length)) (nets, size)

/-! ### Stage 3: parallel hyperedge detection -/

/-- `check_if_hyperedges_are_parallel` (static_hypergraph.cpp:311-329) -/
def isParallel (st : EdgeSt) (lhs rhs : Nat) : Bool :=
  decide (st.size lhs = st.size rhs) &&
    (List.range (st.size lhs)).all (fun i => decide (st.arr (st.first lhs + i) = st.arr (st.first rhs + i)))

/-- the inner loop over `j` (static_hypergraph.cpp:345-362): returns the rest of the bucket with
updated flags, the summed weight and the validity flags -/
def mergeLoop (st : EdgeSt) (weight : Nat → Int) (lhs : CInfo) :
    Int → (Nat → Nat) → List CInfo → List CInfo × Int × (Nat → Nat)
  | w, valid, [] => ([], w, valid)
  | w, valid, r :: rs =>
    if r.valid && decide (lhs.hash = r.hash) && isParallel st lhs.he r.he then
      let res := mergeLoop st weight lhs (w + weight r.he) (wr valid r.he 0) rs
      ({ r with valid := false } :: res.1, res.2)
    else if lhs.hash ≠ r.hash then (r :: rs, w, valid)
    else
      let res := mergeLoop st weight lhs w valid rs
      (r :: res.1, res.2)

/-- the outer loop over `i` (static_hypergraph.cpp:339-365); `fuel` is the number of remaining
entries of the bucket -/
def detectLoop (st : EdgeSt) : Nat → (Nat → Int) → (Nat → Nat) → List CInfo → (Nat → Int) × (Nat → Nat)
  | 0, weight, valid, _ => (weight, valid)
  | _, weight, valid, [] => (weight, valid)
  | fuel + 1, weight, valid, l :: ls =>
    if l.valid then
      let res := mergeLoop st weight l (weight l.he) valid ls
      detectLoop st fuel (wr weight l.he res.2.1) res.2.2 res.1
    else detectLoop st fuel weight valid ls

/-- processing of one bucket (static_hypergraph.cpp:331-367) -/
def detectBucket (st : EdgeSt) (acc : (Nat → Int) × (Nat → Nat)) (b : Nat) : (Nat → Int) × (Nat → Nat) :=
  let sorted := (st.bucket b).mergeSort CInfo.le
  detectLoop st sorted.length acc.1 acc.2 sorted

/-- all buckets in arbitrary order: final weights and validity flags of the temporary hyperedges -/
def detectAll (st : EdgeSt) (buckets : List Nat) : (Nat → Int) × (Nat → Nat) :=
  buckets.foldl (detectBucket st) (st.weight, st.valid)

/-! ### Stage 4: construction of the coarse hypergraph -/

/-- hyperedges of the coarse hypergraph -/
structure NewEdges where
  first : Nat → Nat
  size : Nat → Nat
  enabled : Nat → Bool
  weight : Nat → Int
  arr : Nat → Nat
  maxSize : Nat

/-- one iteration of the loop that writes the valid hyperedges (static_hypergraph.cpp:425-439) -/
def writeEdge (st : EdgeSt) (weight : Nat → Int) (valid : Nat → Nat) (sizes : Nat → Nat)
    (x : NewEdges) (id : Nat) : NewEdges :=
  if valid id > 0 then
    let p := psum valid id
    { first := wr x.first p (psum sizes id)
      size := wr x.size p (st.size id)
      enabled := wr x.enabled p (st.enabled id)
      weight := wr x.weight p (weight id)
      arr := writeSeg x.arr (psum sizes id) (readSeg st.arr (st.first id) (st.size id))
      maxSize := max x.maxSize (st.size id) }
  else x

/-- the in-place loop that remaps valid nets and swaps invalid ones to the end
(static_hypergraph.cpp:452-459); `fuel` bounds the number of iterations, which is `en - pos` -/
def remapLoop (valid : Nat → Nat) : Nat → (Nat → Nat) → Nat → Nat → (Nat → Nat) × Nat
  | 0, nets, _, en => (nets, en)
  | fuel + 1, nets, pos, en =>
    if pos < en then
      if valid (nets pos) > 0 then
        remapLoop valid fuel (wr nets pos (psum valid (nets pos))) (pos + 1) en
      else
        remapLoop valid fuel (wr (wr nets pos (nets (en - 1))) (en - 1) (nets pos)) pos (en - 1)
    else (nets, en)

/-- remapping of the incident nets of all coarse vertices (static_hypergraph.cpp:448-463) -/
def remapAll (valid : Nat → Nat) (start : Nat → Nat) (order : List Nat) (nets : Nat → Nat)
    (size : Nat → Nat) : (Nat → Nat) × (Nat → Nat) :=
  order.foldl (fun st c =>
    let r := remapLoop valid (st.2 c) st.1 (start c) (start c + st.2 c)
    (r.1, wr st.2 c (r.2 - start c))) (nets, size)

/-- copying the incident nets into the coarse hypergraph (static_hypergraph.cpp:474-485) -/
def writeNets (tmp : Nat → Nat) (tmpStart : Nat → Nat) (size : Nat → Nat) (order : List Nat)
    (out : Nat → Nat) : Nat → Nat :=
  order.foldl (fun a c => writeSeg a (psum size c) (readSeg tmp (tmpStart c) (size c))) out

/-- `StaticHypergraph::contract` (static_hypergraph.cpp:63-496): the coarse hypergraph and the map
from nodes to coarse nodes that is returned in `communities`. -/
def contract (H : SHG) (com : Nat → Nat) (s : CSched) (buf : CBuf) : SHG × (Nat → Nat) :=
  let mp := mapping com s.mark
  let cid := coarse H com mp
  let n' := psum mp H.n
  let agg := aggregate H cid s.agg
  let st := contractEdges H cid s.logBuckets buf s.edges
  let start := psum agg.2
  let copied := copyNets H cid start buf.incidentNets s.copy
  let ded := dedupAll s start copied.1 (fun _ => 0)
  let det := detectAll st s.buckets
  let valid := det.2
  let sizes := fun id => if valid id > 0 then st.size id else 0
  let ne := s.writeEdges.foldl (writeEdge st det.1 valid sizes)
    { first := buf.newFirst, size := buf.newSize, enabled := buf.newEnabled, weight := buf.newWeight,
      arr := buf.newIncidenceArray, maxSize := 0 }
  let rem := remapAll valid start s.remap ded.1 ded.2
  ({ n := n'
     m := psum valid H.m
     hnEnabled := fun _ => true
     hnFirst := psum rem.2
     hnSize := rem.2
     hnWeight := agg.1
     heEnabled := ne.enabled
     heFirst := ne.first
     heSize := ne.size
     heWeight := ne.weight
     incidenceArray := ne.arr
     incidentNets := writeNets rem.1 start rem.2 s.writeNodes buf.newIncidentNets
     totalWeight := H.totalWeight
     numPins := psum sizes H.m
     totalDegree := psum rem.2 n'
     maxEdgeSize := ne.maxSize }, cid)

/-- A legal schedule: every loop visits each of its indices exactly once. The number of coarse
vertices `n'` and the lengths `deg` of their segments are the ones computed by the code. -/
structure Legal (s : CSched) (H : SHG) (n' : Nat) (deg : Nat → Nat) : Prop where
  mark : s.mark.Perm H.nodes
  agg : s.agg.Perm H.nodes
  edges : s.edges.Perm (List.range H.m)
  copy : s.copy.Perm H.nodes
  dedup : s.dedup.Perm (List.range n')
  buckets : s.buckets.Perm (List.range (2 ^ s.logBuckets))
  netInsert : ∀ c < n', (s.netInsert c).Perm (List.range (deg c))
  netBuckets : ∀ c < n', (s.netBuckets c).Perm (List.range (2 ^ s.logBuckets))
  writeEdges : s.writeEdges.Perm (List.range H.m)
  remap : s.remap.Perm (List.range n')
  writeNodes : s.writeNodes.Perm (List.range n')

/-- The schedules of a call `contract H com`. -/
def Schedules (H : SHG) (com : Nat → Nat) (s : CSched) : Prop :=
  Legal s H (psum (mapping com s.mark) H.n)
    (aggregate H (coarse H com (mapping com s.mark)) s.agg).2

end Contract
end Verif
