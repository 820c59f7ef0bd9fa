import Verif.Model.StaticHypergraph
/-!
# Model: the contraction forest and the batch uncontraction hierarchy of the n-level hypergraph

`ContractionTree::finalize` (contraction_tree.cpp:61-166), `BatchIndexAssigner`
(contraction_tree.h:62-157), `createBatchUncontractionHierarchyForVersion`
(contraction_tree.cpp:355-501) and `DynamicHypergraph::createBatchUncontractionHierarchy`
(dynamic_hypergraph.cpp:175-224).

The parallel assignment of contractions to batches is an interleaving of the threads' atomic
accesses: every load, `fetch_add`, addition and compare-and-swap on shared data is one step.
Simplifications: ids, counters and batch indices are unbounded natural numbers; memory accesses are
sequentially consistent; the objective of the priority queue (subtree sizes) is not modelled, a
thread may pop any element of its queue; an iterator `(current, end)` over the children of a node is
the list of children it still has to visit; the two local buffers of pushed assignments are written
when the position is known (they are only read by their own thread before).
-/
namespace Verif
namespace Uncontract

/-- `kInvalidVersion` (contraction_tree.h:163) -/
def kInvalidVersion : Nat := 2 ^ 64 - 1

/-- The node array of the contraction tree (contraction_tree.h:182-261): parent (a root is its own
parent), version and time interval of the contraction of the node. -/
structure CTree where
  n : Nat
  par : Nat → Nat
  ver : Nat → Nat
  start : Nat → Nat
  stop : Nat → Nat

/-- comparator of the children of a node (contraction_tree.cpp:118-127) -/
def CTree.before (t : CTree) (u v : Nat) : Bool :=
  decide (t.ver u < t.ver v) ||
  (decide (t.ver u = t.ver v) && decide (t.stop u > t.stop v)) ||
  (decide (t.ver u = t.ver v) && decide (t.stop u = t.stop v) && decide (t.start u > t.start v)) ||
  (decide (t.ver u = t.ver v) && decide (t.stop u = t.stop v) && decide (t.start u = t.start v) && decide (u < v))

/-- `std::sort` of the children (contraction_tree.cpp:116-127) -/
def CTree.sortChilds (t : CTree) (l : List Nat) : List Nat := l.mergeSort (fun u v => !t.before v u)

/-- out degrees, counted with atomic increments (contraction_tree.cpp:64-73); `order` is the order
in which the parallel loop visits the nodes -/
def CTree.outDegrees (t : CTree) (order : List Nat) : Nat → Nat :=
  order.foldl (fun d v => if t.par v ≠ v then SMap.wr d (t.par v) (d (t.par v) + 1) else d) (fun _ => 0)

/-- arrays while the parent pointers are reversed -/
structure FillSt where
  inc : Nat → Nat
  pos : Nat → Nat

/-- one iteration of the loop that reverses the parent pointers (contraction_tree.cpp:87-101);
`off` is the prefix sum of the out degrees (contraction_tree.cpp:75-83) -/
def CTree.fillStep (t : CTree) (off : Nat → Nat) (s : FillSt) (v : Nat) : FillSt :=
  if t.par v ≠ v then
    { inc := SMap.wr s.inc (off (t.par v) + s.pos (t.par v)) v
      pos := SMap.wr s.pos (t.par v) (s.pos (t.par v) + 1) }
  else s

/-- sorting the children of one node (contraction_tree.cpp:115-127) -/
def CTree.sortStep (t : CTree) (deg : Nat → Nat) (a : Nat → Nat) (u : Nat) : Nat → Nat :=
  writeSeg a (psum deg u) (t.sortChilds (readSeg a (psum deg u) (deg u)))

/-- The incidence array built by `finalize` (contraction_tree.cpp:61-127). `inc0` is the
uninitialised array; the three lists are the orders in which the parallel loops run. -/
def CTree.incidence (t : CTree) (o1 o2 o3 : List Nat) (inc0 : Nat → Nat) : Nat → Nat :=
  let deg := t.outDegrees o1
  o3.foldl (t.sortStep deg) (o2.foldl (t.fillStep (psum deg)) { inc := inc0, pos := fun _ => 0 }).inc

/-- `childs(u)` (contraction_tree.h:353-359) -/
def CTree.childs (t : CTree) (o1 o2 o3 : List Nat) (inc0 : Nat → Nat) (u : Nat) : List Nat :=
  let deg := t.outDegrees o1
  readSeg (t.incidence o1 o2 o3 inc0) (psum deg u) (psum deg (u + 1) - psum deg u)

/-- versions for which node `u` is streamed as a root: the loop over the sorted children, with
`last` the local variable `last_version` (contraction_tree.cpp:129-139) -/
def CTree.rootVersions (t : CTree) (u : Nat) : Nat → List Nat → List Nat
  | _, [] => []
  | last, v :: r =>
    (if t.ver v ≠ last ∧ t.ver v < t.ver u then [t.ver v] else []) ++ t.rootVersions u (t.ver v) r

/-- `roots_of_version` (contraction_tree.cpp:112-145): the nodes streamed for a version, in the
order in which the loop visits the nodes (the real order is an arbitrary interleaving, which
the order `order` covers). -/
def CTree.versionRoots (t : CTree) (ch : Nat → List Nat) (order : List Nat) (k : Nat) : List Nat :=
  order.flatMap (fun u => ((t.rootVersions u kInvalidVersion (ch u)).filter (fun x => decide (x = k))).map (fun _ => u))

/-! ### Assigning the contractions of one version to batches -/

/-- `does_interval_intersect` (contraction_tree.cpp:363-369) -/
def intersects (a b : Nat × Nat) : Bool :=
  if a.1 = kInvalid ∨ b.1 = kInvalid then false
  else (decide (a.1 ≤ b.2) && decide (a.2 ≥ b.2)) || (decide (b.1 ≤ a.2) && decide (b.2 ≥ a.2))

/-- The loop that collects the following siblings (contraction_tree.cpp:423-438): the collected
siblings and the rest of the iterator. `iv` is `current_ival`. -/
def grow (t : CTree) (k : Nat) : Nat × Nat → List Nat → List Nat × List Nat
  | _, [] => ([], [])
  | iv, w :: r =>
    if t.ver w = k then
      if intersects iv (t.start w, t.stop w) then
        (w :: (grow t k (min iv.1 (t.start w), max iv.2 (t.stop w)) r).1,
          (grow t k (min iv.1 (t.start w), max iv.2 (t.stop w)) r).2)
      else ([], w :: r)
    else ([], w :: r)

/-- `push_into_pq` (contraction_tree.cpp:371-382): the elements pushed for node `u` -/
def pushIter (t : CTree) (ch : Nat → List Nat) (k u : Nat) : List (List Nat) :=
  match (ch u).dropWhile (fun v => decide (t.ver v ≠ k)) with
  | [] => []
  | v :: r => [v :: r]

/-- pushing the rest of an iterator back (contraction_tree.cpp:440-444) -/
def pushRest (t : CTree) (k : Nat) : List Nat → List (List Nat)
  | [] => []
  | v :: r => if t.ver v = k then [v :: r] else []

/-- `BatchAssignment` (contraction_tree.h:44-49) -/
structure Entry where
  u : Nat
  v : Nat
  idx : Nat
  pos : Nat

/-- Program counter of a thread, with the local variables that are live there. `g` is the group of
siblings that is being assigned, `u` their parent. -/
inductive Pc where
  /-- loop head `while ( !pq.empty() )` -/
  | idle
  /-- `getBatchIndex`: before `min_required_batch <= _high_water_mark` -/
  | check (u : Nat) (g : List Nat)
  /-- before `_high_water_mark.load()` -/
  | loadHw (u : Nat) (g : List Nat)
  /-- `findBatchAssignment`: before `_current_batch_counter[idx].fetch_add`; `hw` tells whether the
  caller will raise the high water mark -/
  | find (u : Nat) (g : List Nat) (idx : Nat) (hw : Bool)
  /-- before `_current_batch_sizes[idx] += num_uncontractions` -/
  | addSize (u : Nat) (g : List Nat) (idx pos : Nat) (hw : Bool)
  /-- `increaseHighWaterMark(idx)`: before the load -/
  | raise (u : Nat) (g : List Nat) (idx pos : Nat)
  /-- `increaseHighWaterMark(idx)`: loop head -/
  | cas (u : Nat) (g : List Nat) (idx pos cur : Nat)
  /-- before the assignments are written and `current_batch_index = assignment.batch_index` -/
  | assign (u : Nat) (g : List Nat) (idx pos : Nat)
  /-- before `if ( pq.empty() )` -/
  | swap
  /-- loop over `local_batch_indices`; `mn` is `min_batch_index` -/
  | scan (j mn : Nat)
  /-- `increaseHighWaterMark(min_batch_index)` -/
  | raise2 (mn : Nat)
  | cas2 (mn cur : Nat)

/-- local data of a thread -/
structure Thr where
  pq : List (List Nat)
  nxt : List (List Nat)
  asg : List Entry
  pc : Pc

/-- shared data: `_high_water_mark`, `_current_batch_counter`, `_current_batch_sizes` and
`local_batch_indices` -/
structure Sh where
  hwm : Nat
  cnt : Nat → Nat
  size : Nat → Nat
  loc : Nat → Nat

/-- the assignments of a group that received position `pos` of batch `idx`
(contraction_tree.cpp:449-452) -/
def entries (u : Nat) (idx pos : Nat) (g : List Nat) : List Entry :=
  (List.range g.length).map (fun j => { u := u, v := g.getD j 0, idx := idx, pos := pos + j })

open SMap (wr)

/-- One step of thread `i` of `T` threads (contraction_tree.cpp:397-467, contraction_tree.h:74-149).
`k` is the version, `mx` is `_max_batch_size`. -/
inductive TStep (t : CTree) (ch : Nat → List Nat) (k mx T i : Nat) : Sh → Thr → Sh → Thr → Prop where
  /-- pop an iterator and collect a group (contraction_tree.cpp:403-444) -/
  | take (s : Sh) (th : Thr) (p1 p2 : List (List Nat)) (v : Nat) (r : List Nat)
      (hpc : th.pc = .idle) (hpq : th.pq = p1 ++ (v :: r) :: p2) :
      TStep t ch k mx T i s th s
        { th with
          pq := p1 ++ p2 ++ pushRest t k (grow t k (t.start v, t.stop v) r).2
          nxt := th.nxt ++ (v :: (grow t k (t.start v, t.stop v) r).1).flatMap (pushIter t ch k)
          pc := .check (t.par v) (v :: (grow t k (t.start v, t.stop v) r).1) }
  /-- `min_required_batch <= _high_water_mark` (contraction_tree.h:76) -/
  | checkLe (s : Sh) (th : Thr) (u : Nat) (g : List Nat) (hpc : th.pc = .check u g) (h : s.loc i ≤ s.hwm) :
      TStep t ch k mx T i s th s { th with pc := .loadHw u g }
  | checkGt (s : Sh) (th : Thr) (u : Nat) (g : List Nat) (hpc : th.pc = .check u g) (h : s.hwm < s.loc i) :
      TStep t ch k mx T i s th s { th with pc := .find u g (s.loc i) false }
  /-- contraction_tree.h:77 -/
  | loadHw (s : Sh) (th : Thr) (u : Nat) (g : List Nat) (hpc : th.pc = .loadHw u g) :
      TStep t ch k mx T i s th s { th with pc := .find u g s.hwm true }
  /-- `fetch_add` on a full batch (contraction_tree.h:136-145) -/
  | fetchFull (s : Sh) (th : Thr) (u : Nat) (g : List Nat) (idx : Nat) (hw : Bool)
      (hpc : th.pc = .find u g idx hw) (h : mx ≤ s.cnt idx) :
      TStep t ch k mx T i s th { s with cnt := wr s.cnt idx (s.cnt idx + g.length) }
        { th with pc := .find u g (idx + 1) hw }
  /-- successful `fetch_add` (contraction_tree.h:136-146) -/
  | fetchOk (s : Sh) (th : Thr) (u : Nat) (g : List Nat) (idx : Nat) (hw : Bool)
      (hpc : th.pc = .find u g idx hw) (h : s.cnt idx < mx) :
      TStep t ch k mx T i s th { s with cnt := wr s.cnt idx (s.cnt idx + g.length) }
        { th with pc := .addSize u g idx (s.cnt idx) hw }
  /-- contraction_tree.h:147 -/
  | addSize (s : Sh) (th : Thr) (u : Nat) (g : List Nat) (idx pos : Nat) (hw : Bool)
      (hpc : th.pc = .addSize u g idx pos hw) :
      TStep t ch k mx T i s th { s with size := wr s.size idx (s.size idx + g.length) }
        { th with pc := if hw then .raise u g idx pos else .assign u g idx pos }
  /-- contraction_tree.h:97 -/
  | raise (s : Sh) (th : Thr) (u : Nat) (g : List Nat) (idx pos : Nat) (hpc : th.pc = .raise u g idx pos) :
      TStep t ch k mx T i s th s { th with pc := .cas u g idx pos s.hwm }
  /-- loop condition of contraction_tree.h:98 is false -/
  | casDone (s : Sh) (th : Thr) (u : Nat) (g : List Nat) (idx pos cur : Nat)
      (hpc : th.pc = .cas u g idx pos cur) (h : idx ≤ cur) :
      TStep t ch k mx T i s th s { th with pc := .assign u g idx pos }
  /-- successful exchange (contraction_tree.h:99-100); the expected value is left unchanged -/
  | casOk (s : Sh) (th : Thr) (u : Nat) (g : List Nat) (idx pos cur : Nat)
      (hpc : th.pc = .cas u g idx pos cur) (h : cur < idx) (hc : s.hwm = cur) :
      TStep t ch k mx T i s th { s with hwm := idx } th
  /-- failed exchange (contraction_tree.h:99-100) -/
  | casFail (s : Sh) (th : Thr) (u : Nat) (g : List Nat) (idx pos cur : Nat)
      (hpc : th.pc = .cas u g idx pos cur) (h : cur < idx) (hc : s.hwm ≠ cur) :
      TStep t ch k mx T i s th s { th with pc := .cas u g idx pos s.hwm }
  /-- writing the assignments (contraction_tree.cpp:449-453) -/
  | assign (s : Sh) (th : Thr) (u : Nat) (g : List Nat) (idx pos : Nat) (hpc : th.pc = .assign u g idx pos) :
      TStep t ch k mx T i s th { s with loc := wr s.loc i idx }
        { th with asg := th.asg ++ entries u idx pos g, pc := .swap }
  /-- the current level is not finished (contraction_tree.cpp:455) -/
  | more (s : Sh) (th : Thr) (hpc : th.pc = .swap) (h : th.pq ≠ []) :
      TStep t ch k mx T i s th s { th with pc := .idle }
  /-- next level (contraction_tree.cpp:455-461) -/
  | level (s : Sh) (th : Thr) (hpc : th.pc = .swap) (h : th.pq = []) :
      TStep t ch k mx T i s th { s with loc := wr s.loc i (s.loc i + 1) }
        { th with pq := th.nxt, nxt := [], pc := .scan 0 (s.loc i + 1) }
  /-- contraction_tree.cpp:462-464 -/
  | scan (s : Sh) (th : Thr) (j mn : Nat) (hpc : th.pc = .scan j mn) (h : j < T) :
      TStep t ch k mx T i s th s { th with pc := .scan (j + 1) (min mn (s.loc j)) }
  | scanEnd (s : Sh) (th : Thr) (j mn : Nat) (hpc : th.pc = .scan j mn) (h : T ≤ j) :
      TStep t ch k mx T i s th s { th with pc := .raise2 mn }
  /-- contraction_tree.cpp:465, contraction_tree.h:96-102 -/
  | raise2 (s : Sh) (th : Thr) (mn : Nat) (hpc : th.pc = .raise2 mn) :
      TStep t ch k mx T i s th s { th with pc := .cas2 mn s.hwm }
  | cas2Done (s : Sh) (th : Thr) (mn cur : Nat) (hpc : th.pc = .cas2 mn cur) (h : mn ≤ cur) :
      TStep t ch k mx T i s th s { th with pc := .idle }
  | cas2Ok (s : Sh) (th : Thr) (mn cur : Nat) (hpc : th.pc = .cas2 mn cur) (h : cur < mn) (hc : s.hwm = cur) :
      TStep t ch k mx T i s th { s with hwm := mn } th
  | cas2Fail (s : Sh) (th : Thr) (mn cur : Nat) (hpc : th.pc = .cas2 mn cur) (h : cur < mn) (hc : s.hwm ≠ cur) :
      TStep t ch k mx T i s th s { th with pc := .cas2 mn s.hwm }

/-- state of all threads -/
structure St where
  sh : Sh
  thr : Nat → Thr

/-- one of the `T` threads makes a step -/
inductive Step (t : CTree) (ch : Nat → List Nat) (k mx T : Nat) : St → St → Prop where
  | mk (s : St) (i : Nat) (hi : i < T) (sh' : Sh) (th' : Thr) (h : TStep t ch k mx T i s.sh (s.thr i) sh' th') :
      Step t ch k mx T s { sh := sh', thr := fun j => if j = i then th' else s.thr j }

/-- any number of steps -/
inductive Steps (t : CTree) (ch : Nat → List Nat) (k mx T : Nat) : St → St → Prop where
  | refl (s : St) : Steps t ch k mx T s s
  | tail {s s' s'' : St} (h : Steps t ch k mx T s s') (h' : Step t ch k mx T s' s'') : Steps t ch k mx T s s''

/-- State before the parallel loop (contraction_tree.cpp:384-397): thread `i` got the iterators of
the roots `dist i`; the assigner comes from the previous version. -/
def initSt (t : CTree) (ch : Nat → List Nat) (k : Nat) (dist : Nat → List Nat) (hwm : Nat) (cnt size : Nat → Nat) : St :=
  { sh := { hwm := hwm, cnt := cnt, size := size, loc := fun _ => 0 }
    thr := fun i => { pq := (dist i).flatMap (pushIter t ch k), nxt := [], asg := [], pc := .idle } }

/-- every thread has left its loop -/
def Done (T : Nat) (s : St) : Prop := ∀ i < T, (s.thr i).pc = .idle ∧ (s.thr i).pq = []

/-! ### Writing the batches -/

/-- the upward loop of `numberOfNonEmptyBatches` (contraction_tree.h:113-115); `none` if it reads
outside of the array of length `n` -/
def nonEmptyUp (n : Nat) (size : Nat → Nat) (cur : Nat) : Option Nat :=
  if cur < n then
    if size cur > 0 then nonEmptyUp n size (cur + 1) else some cur
  else none
termination_by n - cur

/-- the downward loop (contraction_tree.h:107-109) -/
def nonEmptyDown (size : Nat → Nat) : Nat → Nat
  | 0 => 0
  | c + 1 => if size (c + 1) = 0 then nonEmptyDown size c else c + 1

/-- `numberOfNonEmptyBatches` (contraction_tree.h:104-118) -/
def numberOfNonEmptyBatches (n : Nat) (s : Sh) : Option Nat :=
  if s.hwm < n then
    if s.size s.hwm = 0 then
      some (if s.size (nonEmptyDown s.size s.hwm) > 0 then nonEmptyDown s.size s.hwm + 1 else nonEmptyDown s.size s.hwm)
    else nonEmptyUp n s.size s.hwm
  else none

/-- a `Memento`: contraction partner `v` of `u` (hypergraph_common.h) -/
abbrev Memento := Nat × Nat

/-- writing one assignment (contraction_tree.cpp:484-490); `none` if an index is out of range -/
def writeEntry (bs : List (List Memento)) (e : Entry) : Option (List (List Memento)) :=
  match bs[e.idx]? with
  | none => none
  | some b => if e.pos < b.length then some (bs.set e.idx (b.set e.pos (e.u, e.v))) else none

def writeAll : List Entry → List (List Memento) → Option (List (List Memento))
  | [], bs => some bs
  | e :: es, bs => match writeEntry bs e with
    | none => none
    | some bs => writeAll es bs

/-- The end of `createBatchUncontractionHierarchyForVersion` (contraction_tree.cpp:471-500). The
assignments are written in the order `ws`. -/
def writeBatches (n : Nat) (s : Sh) (ws : List Entry) : Option (List (List Memento)) :=
  match numberOfNonEmptyBatches n s with
  | none => none
  | some m =>
    match writeAll ws ((List.range m).map (fun b => List.replicate (s.size b) (kInvalid, kInvalid))) with
    | none => none
    | some bs => some (bs.reverse.dropWhile (fun b => b.isEmpty))

/-- `createBatchUncontractionHierarchyForVersion` (contraction_tree.cpp:355-501): from the state
`hwm cnt size` of the batch assigner, `T` threads may return the batches `res` (`none`: some access
was out of range) and leave the assigner in state `s'`. `roots` are the roots of the version. -/
inductive ForVersion (t : CTree) (ch : Nat → List Nat) (roots : List Nat) (k mx T : Nat) (hwm : Nat)
    (cnt size : Nat → Nat) : Sh → Option (List (List Memento)) → Prop where
  | mk (dist : Nat → List Nat) (s : St) (ws : List Entry)
      (hd : ((List.range T).flatMap dist).Perm roots)
      (hs : Steps t ch k mx T (initSt t ch k dist hwm cnt size) s) (hdone : Done T s)
      (hw : ws.Perm ((List.range T).flatMap (fun i => (s.thr i).asg))) :
      ForVersion t ch roots k mx T hwm cnt size s.sh (writeBatches t.n s.sh ws)

/-- `BatchIndexAssigner::reset` (contraction_tree.h:120-127) -/
def resetCounters (m : Nat) (x : Nat → Nat) : Nat → Nat := fun b => if b < m then 0 else x b

/-- The loop over the versions in `createBatchUncontractionHierarchy`
(dynamic_hypergraph.cpp:182-196): `Versions t ch roots mx T v hwm cnt size res` – starting with the
assigner state, the versions `v`, `v+1`, … of the list produce the batch vectors `res`. -/
inductive Versions (t : CTree) (ch : Nat → List Nat) (roots : Nat → List Nat) (mx T : Nat) :
    Nat → Nat → Nat → (Nat → Nat) → (Nat → Nat) → Option (List (List (List Memento))) → Prop where
  | done (v hwm : Nat) (cnt size : Nat → Nat) : Versions t ch roots mx T v 0 hwm cnt size (some [])
  | fail (v left hwm : Nat) (cnt size : Nat → Nat) (s : Sh)
      (h : ForVersion t ch (roots v) v mx T hwm cnt size s none) :
      Versions t ch roots mx T v (left + 1) hwm cnt size none
  | next (v left hwm : Nat) (cnt size : Nat → Nat) (s : Sh) (B : List (List Memento)) (r : Option (List (List (List Memento))))
      (h : ForVersion t ch (roots v) v mx T hwm cnt size s (some B))
      (hr : Versions t ch roots mx T (v + 1) left 0 (resetCounters B.length s.cnt) (resetCounters B.length s.size) r) :
      Versions t ch roots mx T v (left + 1) hwm cnt size (r.map (fun l => B :: l))

/-- The orders of the parallel loops of `finalize` and the uninitialised incidence array -/
structure FinSched where
  o1 : List Nat
  o2 : List Nat
  o3 : List Nat
  o4 : List Nat
  inc0 : Nat → Nat

/-- `DynamicHypergraph::createBatchUncontractionHierarchy` (dynamic_hypergraph.cpp:175-196 with
`finalize`, contraction_tree.cpp:61-145): the possible results; batch vector `v` belongs to version
`v`. The batch indices stored at the nodes (dynamic_hypergraph.cpp:198-208) are not modelled
here. -/
def Hierarchy (t : CTree) (numVersions mx T : Nat) (f : FinSched) (res : Option (List (List (List Memento)))) : Prop :=
  Versions t (t.childs f.o1 f.o2 f.o3 f.inc0) (t.versionRoots (t.childs f.o1 f.o2 f.o3 f.inc0) f.o4) mx T
    0 numVersions 0 (fun _ => 0) (fun _ => 0) res

end Uncontract
end Verif
