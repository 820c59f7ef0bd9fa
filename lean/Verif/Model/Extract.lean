import Verif.Model.Factory
import Verif.Model.PartitionedHypergraph
/-!
# Model: extraction of blocks

`PartitionedHypergraph::extract` (partitioned_hypergraph.h:929-1018) and `extractAllBlocks`
(partitioned_hypergraph.h:1023-1159).  Parallel loops run their iterations in the order given by the
schedule, one iteration is one step.  The sequential numbering loops and the phases in between are
executed as written.  Ids are unbounded.
-/
namespace Verif
namespace Extract
open SMap (wr)
open Factory

/-- `ExtractedBlock` (partitioned_hypergraph.h:92-98); `hg = none`: the factory throws an exception.
`com` are the community ids set afterwards. -/
structure Block where
  hg : Option SHG
  hnMap : Nat → Nat
  cut : Nat → Bool
  com : Nat → Nat

/-- Scheduling choices of one extraction: orders of the parallel loops and the schedules of the
construction (which depend on the arguments of the construction). -/
structure XSched where
  pinOrder : List Nat
  weightOrder : List Nat
  cutOrder : List Nat
  comOrder : List Nat
  build : (n m : Nat) → (Nat → List Nat) → FSched n
  arr0 : Nat → Nat
  nets0 : Nat → Nat

/-- schedules that visit every enabled hyperedge and node once -/
structure XSched.Legal (s : XSched) (H : SHG) : Prop where
  pin : s.pinOrder.Perm H.edges
  weight : s.weightOrder.Perm H.nodes
  cut : s.cutOrder.Perm H.edges
  com : s.comOrder.Perm H.nodes
  build : ∀ n m ev, (s.build n m ev).Legal m ev

/-- numbering loop (partitioned_hypergraph.h:951-955, 957-962): the selected ids in increasing order
get the numbers 0, 1, …, all others `kInvalid` -/
def number (ids : List Nat) (sel : Nat → Bool) : (Nat → Nat) × Nat :=
  ids.foldl (fun st v => if sel v then (wr st.1 v st.2, st.2 + 1) else st) (fun _ => kInvalid, 0)

/-- pins of one hyperedge (partitioned_hypergraph.h:979-983) -/
def pushPins (part : Assign) (block : Nat) (hnMap : Nat → Nat) (i : Nat) (pins : List Nat) (ev : Nat → List Nat) : Nat → List Nat :=
  pins.foldl (fun ev pin => if part pin = some block then wr ev i (ev i ++ [hnMap pin]) else ev) ev

/-- `extract` with the results of the two evaluations of the selection condition (lines 958-959 and
975-976) given separately -/
def extractWith (H : SHG) (part : Assign) (com : Nat → Nat) (block : Nat) (cut : Option (Nat → Bool)) (stable : Bool)
    (s : XSched) (sel1 sel2 : Nat → Bool) : Block :=
  let hn := number H.nodes (fun v => decide (part v = some block))
  let he := number H.edges sel1
  -- lines 972-985
  let ev := s.pinOrder.foldl (fun ev e => if sel2 e then pushPins part block hn.1 (he.1 e) (H.pins e) ev else ev) (fun _ => [])
  let ew := s.pinOrder.foldl (fun (w : Nat → Int) e => if sel2 e then wr w (he.1 e) (H.heWeight e) else w) (fun _ => 0)
  -- lines 987-992
  let nw := s.weightOrder.foldl (fun (w : Nat → Int) v => if part v = some block then wr w (hn.1 v) (H.hnWeight v) else w) (fun _ => 0)
  -- lines 994-1003
  let ac := match cut with
    | none => fun _ => false
    | some c => s.cutOrder.foldl (fun (a : Nat → Bool) e => if he.1 e ≠ kInvalid then wr a (he.1 e) (c e) else a) (fun _ => false)
  { hg := construct hn.2 he.2 he.2 ev (some ew) (some nw) stable (s.build hn.2 he.2 ev) s.arr0 s.nets0
    hnMap := hn.1
    cut := ac
    com := s.comOrder.foldl (fun (c : Nat → Nat) v => if part v = some block then wr c (hn.1 v) (com v) else c) (fun _ => 0) }

/-- the selection condition (partitioned_hypergraph.h:958-959) -/
def select {σ : Type} (C : ConInfo σ) (con : σ) (block : Nat) (split : Bool) (e : Nat) : Bool :=
  decide (C.pinCount con e block > 1) && (split || decide (C.connectivity con e = 1))

/-- `extract` on a partition that is not modified meanwhile -/
def extract {σ : Type} (C : ConInfo σ) (H : SHG) (P : PHG σ) (com : Nat → Nat) (block : Nat) (cut : Option (Nat → Bool))
    (split stable : Bool) (s : XSched) : Block :=
  extractWith H P.part com block cut stable s (select C P.con block split) (select C P.con block split)

/-! ### All blocks at once -/

/-- Scheduling choices of `extractAllBlocks`: the order of the `fetch_add`s on the node counters, the
hyperedges visited by every thread (in the order in which `copy_parallel` concatenates the streams),
the order of the other loops, and the schedules of the constructions. -/
structure ASched where
  nodeOrder : List Nat
  streams : List (List Nat)
  pinOrder : Nat → List Nat
  weightOrder : List Nat
  cutOrder : Nat → List Nat
  comOrder : List Nat
  build : (p n m : Nat) → (Nat → List Nat) → FSched n
  arr0 : Nat → Nat → Nat
  nets0 : Nat → Nat → Nat

/-- node numbering (lines 1040-1045, 1063-1068): per block -/
def numberAll (part : Assign) (k : Nat) (order : List Nat) : (Nat → Nat) × (Nat → Nat) :=
  order.foldl (fun st v => match part v with
    | some b => if b < k then (wr st.1 v (st.2 b), wr st.2 b (st.2 b + 1)) else st
    | none => st) (fun _ => kInvalid, fun _ => 0)

/-- one hyperedge (lines 1049-1054, 1072-1077): append it to the lists of its blocks -/
def toBlocks {σ : Type} (C : ConInfo σ) (con : σ) (split : Bool) (lists : Nat → List Nat) (e : Nat) : Nat → List Nat :=
  (C.connSet con e).foldl (fun lists b => if select C con b split e then wr lists b (lists b ++ [e]) else lists) lists

/-- `hes2block` (lines 1047-1056, 1060, 1070-1083): per block the concatenation of the streams of the threads -/
def hes2block {σ : Type} (C : ConInfo σ) (con : σ) (split : Bool) (streams : List (List Nat)) (b : Nat) : List Nat :=
  (streams.map (fun es => es.foldl (toBlocks C con split) (fun _ => []) b)).flatten

/-- `extractAllBlocks` (lines 1023-1159); the stable variant is the schedule with `nodeOrder = H.nodes`
and `streams = [H.edges]`.  In C++ the list of a block `≥ k` must not be accessed: the model is meant
for `k` = number of blocks of the partition. -/
def extractAll {σ : Type} (C : ConInfo σ) (H : SHG) (P : PHG σ) (k : Nat) (com : Nat → Nat) (cut : Option (Nat → Bool))
    (split stable : Bool) (s : ASched) : (Nat → Block) × (Nat → Nat) :=
  let hn := numberAll P.part k s.nodeOrder
  let hes := hes2block C P.con split s.streams
  let ev := fun p => (s.pinOrder p).foldl (fun ev i => pushPins P.part p hn.1 i (H.pins ((hes p).getD i 0)) ev) (fun _ => [])
  let ew := fun p => (s.pinOrder p).foldl (fun (w : Nat → Int) i => wr w i (H.heWeight ((hes p).getD i 0))) (fun _ => 0)
  let nw := s.weightOrder.foldl (fun (w : Nat → Nat → Int) v => match P.part v with
    | some b => if b < k then wr w b (wr (w b) (hn.1 v) (H.hnWeight v)) else w
    | none => w) (fun _ _ => 0)
  let ac := fun p => match cut with
    | none => fun _ => false
    | some c => (s.cutOrder p).foldl (fun (a : Nat → Bool) i => wr a i (c ((hes p).getD i 0))) (fun _ => false)
  let cm := s.comOrder.foldl (fun (w : Nat → Nat → Nat) v => match P.part v with
    | some b => if b < k then wr w b (wr (w b) (hn.1 v) (com v)) else w
    | none => w) (fun _ _ => 0)
  (fun p =>
    { hg := construct (hn.2 p) (hes p).length (hes p).length (ev p) (some (ew p)) (some (nw p)) stable
        (s.build p (hn.2 p) (hes p).length (ev p)) (s.arr0 p) (s.nets0 p)
      hnMap := hn.1
      cut := ac p
      com := cm p },
    hn.1)

/-- legal schedules of `extractAllBlocks` -/
structure ASched.Legal (s : ASched) {σ : Type} (C : ConInfo σ) (H : SHG) (P : PHG σ) (k : Nat) (split : Bool) : Prop where
  node : s.nodeOrder.Perm H.nodes
  streams : s.streams.flatten.Perm H.edges
  pin : ∀ p < k, (s.pinOrder p).Perm (List.range (hes2block C P.con split s.streams p).length)
  weight : s.weightOrder.Perm H.nodes
  cut : ∀ p < k, (s.cutOrder p).Perm (List.range (hes2block C P.con split s.streams p).length)
  com : s.comOrder.Perm H.nodes
  build : ∀ p n m ev, (s.build p n m ev).Legal m ev

end Extract
end Verif
