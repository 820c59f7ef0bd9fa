import Verif.Model.StaticHypergraph
/-!
# Model: construction of static hypergraphs

`StaticHypergraphFactory::construct` (static_hypergraph_factory.cpp:38-170),
`computeTotalNodeWeightParallel` (hypergraph_utils.h:40-82) and
`lib::create_hypergraph_from_adjacency_array` (lib_helper_functions.h:344-382).
-/
namespace Verif
namespace Factory
open SMap (wr)

/-! ### Total node weight with overflow detection -/

/-- `std::numeric_limits<HypernodeWeight>::max()` for 32-bit weights -/
def maxWeight : Int := 2147483647

/-- `impl::add` (hypergraph_utils.h:40-47): returns the sum, or the left operand and sets the error
flag if the sum would exceed the largest weight -/
def safeAdd (lhs : Int × Bool) (rhs : Int) : Int × Bool :=
  if lhs.1 ≤ maxWeight - rhs then (lhs.1 + rhs, lhs.2) else (lhs.1, true)

/-- The expressions `tbb::parallel_reduce` may evaluate over `[i, j)`: start from the identity,
extend by a subrange with the body, join two adjacent results. -/
inductive Reduce : Nat → Nat → Type
  | start (i : Nat) : Reduce i i
  | extend {i j : Nat} (e : Reduce i j) (k : Nat) (h : j ≤ k) : Reduce i k
  | join {i j k : Nat} (l : Reduce i j) (r : Reduce j k) : Reduce i k

/-- value and error flag of a reduction (hypergraph_utils.h:66-76); all nodes are enabled here -/
def Reduce.eval (w : Nat → Int) : {i j : Nat} → Reduce i j → Int × Bool
  | _, _, .start _ => (0, false)
  | _, _, .extend (j := j) e k _ => (List.range' j (k - j)).foldl (fun acc v => safeAdd acc (w v)) (e.eval w)
  | _, _, .join l r =>
    let a := l.eval w
    let b := r.eval w
    safeAdd (a.1, a.2 || b.2) b.1

/-! ### `StaticHypergraphFactory::construct` -/

/-- Schedule of a construction: how many threads count, which thread handles which hyperedge, the
order in which the pins `(hyperedge, index)` are written, and the reduction tree of the weight sum. -/
structure FSched (n : Nat) where
  threads : Nat
  thread : Nat → Nat
  pins : List (Nat × Nat)
  reduce : Reduce 0 n

/-- all pins of the input as (hyperedge, index) pairs -/
def allPins (m : Nat) (ev : Nat → List Nat) : List (Nat × Nat) :=
  (List.range m).flatMap (fun e => (List.range (ev e).length).map (fun i => (e, i)))

/-- the counter of thread `t` (static_hypergraph_factory.cpp:59-79): its hyperedges' pins -/
def localCount (m : Nat) (ev : Nat → List Nat) (thread : Nat → Nat) (t v : Nat) : Nat :=
  ((List.range m).filter (fun e => thread e = t)).foldl (fun (c : Nat) e => (ev e).foldl (fun (c : Nat) pin => if pin = v then c + 1 else c) c) 0

/-- sum over the thread-local counters (static_hypergraph_factory.cpp:85-93) -/
def netCount (m : Nat) (ev : Nat → List Nat) (threads : Nat) (thread : Nat → Nat) (v : Nat) : Nat :=
  (List.range threads).foldl (fun c t => c + localCount m ev thread t v) 0

/-- thread-local maxima and their combination (static_hypergraph_factory.cpp:69-70, 80-83) -/
def maxSize (m : Nat) (ev : Nat → List Nat) (threads : Nat) (thread : Nat → Nat) : Nat :=
  (List.range threads).foldl (fun c t => max c
    (((List.range m).filter (fun e => thread e = t)).foldl (fun c e => max c (ev e).length) 0)) 0

/-- arrays during `setup_hyperedges` -/
structure PinSt where
  arr : Nat → Nat
  nets : Nat → Nat
  cnt : Nat → Nat

/-- writing one pin and its incident net, position reserved by `fetch_add`
(static_hypergraph_factory.cpp:126-137) -/
def writePin (ev : Nat → List Nat) (pinStart netStart : Nat → Nat) (st : PinSt) (p : Nat × Nat) : PinSt :=
  let pin := (ev p.1).getD p.2 0
  { arr := wr st.arr (pinStart p.1 + p.2) pin
    nets := wr st.nets (netStart pin + st.cnt pin) p.1
    cnt := wr st.cnt pin (st.cnt pin + 1) }

/-- sorting the incident nets of every vertex (static_hypergraph_factory.cpp:155-162) -/
def sortNets (n : Nat) (netStart deg : Nat → Nat) (nets : Nat → Nat) : Nat → Nat :=
  (List.range n).foldl (fun a v => writeSeg a (netStart v) (sortIds (readSeg a (netStart v) (deg v)))) nets

/-- weights if given (static_hypergraph_factory.cpp:112-114, 141-143), else the default 1
(static_hypergraph.h:83-97) -/
def weightOrOne (w : Option (Nat → Int)) : Nat → Int := match w with | some w => w | none => fun _ => 1

/-- `StaticHypergraphFactory::construct` (static_hypergraph_factory.cpp:38-170); `none` means that an
`InvalidInputException` is thrown.  `ev` is the edge vector, of length `len`. `arr0`/`nets0` are the
uninitialised arrays. Weights default to 1 (static_hypergraph.h:83-97). Sentinel entries are not
modelled; ids are unbounded. -/
def construct (n m len : Nat) (ev : Nat → List Nat) (ew : Option (Nat → Int)) (nw : Option (Nat → Int))
    (stable : Bool) (s : FSched n) (arr0 nets0 : Nat → Nat) : Option SHG :=
  if len ≠ m then none
  else if (List.range m).any (fun e => (ev e).isEmpty || (ev e).any (fun v => decide (v ≥ n))) then none
  else
    let deg := netCount m ev s.threads s.thread
    let size := fun e => (ev e).length
    let st := s.pins.foldl (writePin ev (psum size) (psum deg)) { arr := arr0, nets := nets0, cnt := fun _ => 0 }
    let w := weightOrOne nw
    let tot := s.reduce.eval w
    if tot.2 then none
    else some
      { n := n, m := m
        hnEnabled := fun v => decide (v < n), hnFirst := psum deg, hnSize := deg, hnWeight := w
        heEnabled := fun e => decide (e < m), heFirst := psum size, heSize := size
        heWeight := weightOrOne ew
        incidenceArray := st.arr
        incidentNets := if stable then sortNets n (psum deg) deg st.nets else st.nets
        totalWeight := tot.1
        numPins := psum size m
        totalDegree := psum deg n
        maxEdgeSize := maxSize m ev s.threads s.thread }

/-- legal schedules of a construction -/
structure FSched.Legal {n : Nat} (s : FSched n) (m : Nat) (ev : Nat → List Nat) : Prop where
  thread : ∀ e < m, s.thread e < s.threads
  pins : s.pins.Perm (allPins m ev)

/-! ### The C interface -/

/-- the duplicate removal loop of `deduplicateHyperedgePins` (deduplicate.h:42-47) -/
def dedupLoop : Nat → (Nat → Nat) → Nat → Nat → Nat → (Nat → Nat) × Nat
  | 0, a, _, j, _ => (a, j)
  | fuel + 1, a, i, j, n =>
    if i < n then
      if a (j - 1) ≠ a i then dedupLoop fuel (wr (wr a i (a j)) j (a i)) (i + 1) (j + 1) n
      else dedupLoop fuel a (i + 1) j n
    else (a, j)

/-- `deduplicateHyperedgePins` (deduplicate.h:38-55) without the counters for the warning -/
def dedupPins (l : List Nat) : List Nat :=
  let sorted := sortIds l
  let r := dedupLoop sorted.length (fun i => sorted.getD i 0) 1 1 sorted.length
  if r.2 < sorted.length then readSeg r.1 0 r.2 else readSeg r.1 0 sorted.length

/-- the edge vector built from the adjacency array (lib_helper_functions.h:357-376) -/
def edgeVector (idx pins : Nat → Nat) (e : Nat) : List Nat :=
  dedupPins (readSeg pins (idx e) (idx (e + 1) - idx e))

/-- `lib::create_hypergraph_from_adjacency_array` (lib_helper_functions.h:344-382) for the presets
that use static hypergraphs; `none` means that the call reports INVALID_INPUT. -/
def createHypergraph (n m : Nat) (idx pins : Nat → Nat) (ew nw : Option (Nat → Int)) (s : FSched n)
    (arr0 nets0 : Nat → Nat) : Option SHG :=
  if n > kInvalid ∨ m > kInvalid then none
  else if idx 0 ≠ 0 then none
  else if (List.range m).any (fun e => decide (idx (e + 1) < idx e) || decide (idx (e + 1) - idx e > n) ||
      (readSeg pins (idx e) (idx (e + 1) - idx e)).any (fun p => decide (p > kInvalid))) then none
  else construct n m m (edgeVector idx pins) ew nw true s arr0 nets0

end Factory
end Verif
