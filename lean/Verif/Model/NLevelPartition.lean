import Verif.Model.DynamicHypergraph
import Verif.Model.ConcurrentMoves
/-!
# Model: the partition and the gain caches during n-level uncoarsening

`PartitionedHypergraph::uncontract` and `restoreSinglePinAndParallelNets` (partitioned_hypergraph.h:411-445,
495-545) with the callbacks of the gain caches for km1, cut and soed, as used by the n-level uncoarsener
(nlevel_uncoarsener.cpp:73-87, 139-215). The hypergraph itself is the one of `Model/DynamicHypergraph.lean`.

Simplifications: a callback reads its net under the lock of the net, so its reads are one step, together with
the change of the net; its atomic additions to the gain cache are separate steps, which may be delayed
arbitrarily (also beyond the end of the critical section). Ids are unbounded.
-/
namespace Verif
namespace Dyn
open SMap (wr)

/-- The hypergraph as the partition sees it: enabled nodes, enabled nets, their pins and incident nets
(dynamic_hypergraph.h: `nodes`, `edges`, `pins`, `incidentEdges`) -/
def DH.hg (h : DH) : HG where
  nodes := (List.range h.n).filter h.en
  edges := (List.range h.m).filter h.een
  pins := fun e => if decide (e < h.m) && h.een e then h.edgePins e else []
  inc := fun v => (h.ina.incidentEdges v).getD []
  nw := h.wt
  ew := h.ew

/-! ### Callbacks of the gain caches

`pins` are the pins of the net after the change, `cs`, `conn`, `pc` are `connectivitySet`, `connectivity` and
`pinCountInPart` of the net, `blk` is the block of `u`, `after` the result of `incrementPinCountOfBlock`, `w` the
weight of the net. A missing pin or block (`find?` without result; an index out of range in the code) is
represented by no operation. -/

/-- `Km1GainCache::uncontractUpdateAfterRestore` (km1_gain_cache.cpp:165-199) -/
def km1Restore (k : Nat) (part : Assign) (pins cs : List Nat) (blk v after : Nat) (w : Int) : List CacheOp :=
  (if after = 2 then match pins.find? (fun x => decide (x ≠ v ∧ part x = some blk)) with
    | some x => [.add (penIdx k x) w]
    | none => []
   else []) ++
  [.add (penIdx k v) w] ++ cs.map (fun b => .add (benIdx k v b) w)

/-- `Km1GainCache::uncontractUpdateAfterReplacement` (km1_gain_cache.cpp:201-231) -/
def km1Replace (k : Nat) (cs : List Nat) (pc : Nat → Nat) (blk u v : Nat) (w : Int) : List CacheOp :=
  (if pc blk = 1 then [.add (penIdx k u) w, .add (penIdx k v) (-w)] else []) ++
  [.add (penIdx k u) (-w), .add (penIdx k v) w] ++
  cs.flatMap (fun b => [.add (benIdx k u b) (-w), .add (benIdx k v b) w])

/-- `CutGainCache::uncontractUpdateAfterRestore` (cut_gain_cache.cpp:170-221) -/
def cutRestore (k : Nat) (pins cs : List Nat) (conn : Nat) (pc : Nat → Nat) (blk v after : Nat) (w : Int) : List CacheOp :=
  if conn = 2 then
    (if after = 2 then match cs.find? (fun b => decide (b ≠ blk)) with
      | some b => (pins.filter (fun x => decide (x ≠ v))).map (fun x => .add (benIdx k x b) (-w))
      | none => []
     else []) ++
    cs.flatMap (fun b => if pc b = pins.length - 1 then [.add (benIdx k v b) w] else [])
  else if after = pins.length then
    .add (penIdx k v) w ::
    (if pins.length = 2 then (pins.filter (fun x => decide (x ≠ v))).map (fun x => .add (penIdx k x) w) else [])
  else []

/-- `CutGainCache::uncontractUpdateAfterReplacement` (cut_gain_cache.cpp:223-249) -/
def cutReplace (k size : Nat) (cs : List Nat) (conn : Nat) (pc : Nat → Nat) (blk u v : Nat) (w : Int) : List CacheOp :=
  if size > 1 then
    (if pc blk = size then [.add (penIdx k u) (-w), .add (penIdx k v) w] else []) ++
    (if conn = 2 then
      cs.flatMap (fun b => if pc b = size - 1 then [.add (benIdx k u b) (-w), .add (benIdx k v b) w] else [])
     else [])
  else []

/-- `SoedGainCache::uncontractUpdateAfterRestore` (soed_gain_cache.cpp:204-283) -/
def soedRestore (k : Nat) (part : Assign) (pins cs : List Nat) (conn : Nat) (pc : Nat → Nat) (blk v after : Nat) (w : Int) : List CacheOp :=
  let other := if after = 2 then pins.find? (fun x => decide (x ≠ v ∧ part x = some blk)) else none
  (match other with
    | some x => .add (penIdx k x) w :: (if pins.length = 2 then [.add (benIdx k x blk) w] else [])
    | none => []) ++
  (if after = 2 ∧ conn = 2 then match cs.find? (fun b => decide (b ≠ blk)) with
    | some b => (pins.filter (fun x => decide (x ≠ v))).map (fun x => .add (benIdx k x b) (-w))
    | none => []
   else []) ++
  [.add (penIdx k v) w] ++
  cs.flatMap (fun b => .add (benIdx k v b) w :: (if pc b = pins.length - 1 then [.add (benIdx k v b) w] else [])) ++
  (if after = pins.length then
    .add (penIdx k v) w :: (if pins.length = 2 then match other with
      | some x => [.add (penIdx k x) w]
      | none => []
     else [])
   else [])

/-- `SoedGainCache::uncontractUpdateAfterReplacement` (soed_gain_cache.cpp:285-328) -/
def soedReplace (k size : Nat) (cs : List Nat) (pc : Nat → Nat) (blk u v : Nat) (w : Int) : List CacheOp :=
  if size > 1 then
    (if pc blk > 1 then [.add (penIdx k u) (-w), .add (penIdx k v) w] else []) ++
    (if pc blk = size then [.add (penIdx k u) (-w), .add (penIdx k v) w] else []) ++
    cs.flatMap (fun b => [.add (benIdx k u b) (-w), .add (benIdx k v b) w] ++
      (if pc b = size - 1 then [.add (benIdx k u b) (-w), .add (benIdx k v b) w] else []))
  else []

/-- the callback for a net that contains `u` and `v`, for the gain cache of the objective -/
def restoreOps (o : Metrics.Obj) (k : Nat) (part : Assign) (pins cs : List Nat) (conn : Nat) (pc : Nat → Nat) (blk v after : Nat) (w : Int) : List CacheOp :=
  match o with
  | .km1 => km1Restore k part pins cs blk v after w
  | .cut => cutRestore k pins cs conn pc blk v after w
  | .soed => soedRestore k part pins cs conn pc blk v after w

/-- the callback for a net in which `v` replaces `u`, for the gain cache of the objective -/
def replaceOps (o : Metrics.Obj) (k size : Nat) (cs : List Nat) (conn : Nat) (pc : Nat → Nat) (blk u v : Nat) (w : Int) : List CacheOp :=
  match o with
  | .km1 => km1Replace k cs pc blk u v w
  | .cut => cutReplace k size cs conn pc blk u v w
  | .soed => soedReplace k size cs pc blk u v w

/-- `fetch_add` on an entry of the gain cache -/
def cacheAdd (c : Nat → Int) (i : Nat) (a : Int) : Nat → Int := fun j => if j = i then c j + a else c j

/-! ### Uncontraction of a batch -/

/-- State during the uncontraction of a batch: hypergraph and mementos, partition, gain cache, operations on
the gain cache that are still to be executed by the mementos -/
structure PUSt (σ : Type) where
  x : USt
  P : PHG σ
  cache : Nat → Int
  todo : Nat → List CacheOp

/-- Setting the blocks of the contraction partners (partitioned_hypergraph.h:413-420), for the mementos in the
order in which the threads process them; fails if a representative has no block. -/
def assignBatch : List (Nat × Nat) → Assign → Option Assign
  | [], part => some part
  | (u, v) :: l, part => match part u with
    | none => none
    | some b => assignBatch l (part.put v b)

/-- One step of `uncontract` (partitioned_hypergraph.h:422-434, dynamic_hypergraph.cpp:96-170); `ini` tells whether
the gain cache is initialised. -/
inductive PUStep {σ : Type} (C : ConInfo σ) (k : Nat) (o : Metrics.Obj) (ini : Bool) (batch : List (Nat × Nat)) : PUSt σ → PUSt σ → Prop
  /-- steps that do not change a net; a memento goes on when its callback has returned -/
  | other (s : PUSt σ) (x' : USt) (h : UStep batch s.x x') (hp : x'.h.pins = s.x.h.pins) (hs : x'.h.size = s.x.h.size)
      (ht : ∀ j, x'.tk j ≠ s.x.tk j → s.todo j = []) : PUStep C k o ini batch s { s with x := x' }
  /-- `v` replaces `u` in a net (dynamic_hypergraph.cpp:141-145, partitioned_hypergraph.h:431-433) -/
  | write (s : PUSt σ) (j u v e p : Nat) (cs : List Call) (blk : Nat) (hj : batch[j]? = some (u, v)) (ht : s.x.tk j = .write e p cs)
      (h0 : s.todo j = []) (hb : s.P.part u = some blk) :
      PUStep C k o ini batch s { s with
        x := { s.x with h := { s.x.h with pins := wr s.x.h.pins e ((s.x.h.pins e).set p v) }, tk := wr s.x.tk j (.nets cs) }
        todo := wr s.todo j (if ini then replaceOps o k (s.x.h.size e) (C.connSet s.P.con e) (C.connectivity s.P.con e) (C.pinCount s.P.con e) blk u v (s.x.h.ew e) else []) }
  /-- a pin is restored (dynamic_hypergraph.cpp:671-682, partitioned_hypergraph.h:423-430) -/
  | grow (s : PUSt σ) (j e p : Nat) (cs : List Call) (blk : Nat) (ht : s.x.tk j = .resize e p cs) (hp : p < (s.x.h.pins e).length)
      (hbi : s.x.h.bi ((s.x.h.pins e).getD p 0) = s.x.h.bi (batch.getD 0 (0, 0)).2) (h0 : s.todo j = [])
      (hb : s.P.part (s.x.h.par ((s.x.h.pins e).getD p 0)) = some blk) :
      PUStep C k o ini batch s { s with
        x := { s.x with h := { s.x.h with size := wr s.x.h.size e (s.x.h.size e + 1) }, tk := wr s.x.tk j (.resize e (p + 1) cs) }
        P := { s.P with con := (C.incBlock s.P.con e blk).2 }
        todo := wr s.todo j (if ini then restoreOps o k s.P.part ((s.x.h.pins e).take (s.x.h.size e + 1)) (C.connSet (C.incBlock s.P.con e blk).2 e)
          (C.connectivity (C.incBlock s.P.con e blk).2 e) (C.pinCount (C.incBlock s.P.con e blk).2 e) blk ((s.x.h.pins e).getD p 0) (C.incBlock s.P.con e blk).1 (s.x.h.ew e) else []) }
  /-- one addition to the gain cache -/
  | cache (s : PUSt σ) (j i : Nat) (a : Int) (rest : List CacheOp) (h0 : s.todo j = .add i a :: rest) :
      PUStep C k o ini batch s { s with cache := cacheAdd s.cache i a, todo := wr s.todo j rest }

/-- states reached while a batch is uncontracted -/
inductive PUSteps {σ : Type} (C : ConInfo σ) (k : Nat) (o : Metrics.Obj) (ini : Bool) (batch : List (Nat × Nat)) : PUSt σ → PUSt σ → Prop
  | refl (s : PUSt σ) : PUSteps C k o ini batch s s
  | tail (s s' s'' : PUSt σ) (h : PUSteps C k o ini batch s s') (h' : PUStep C k o ini batch s' s'') : PUSteps C k o ini batch s s''

/-- the state between two operations: hypergraph, partition, gain cache, whether it is initialised -/
structure PHN (σ : Type) where
  h : DH
  P : PHG σ
  cache : Nat → Int
  ini : Bool

/-- the state in front of the parallel loop over the mementos, with the blocks `part` -/
def PHN.begin {σ : Type} (s : PHN σ) (part : Assign) : PUSt σ :=
  ⟨⟨s.h, fun _ => .wait, fun _ => false⟩, { s.P with part := part }, s.cache, fun _ => []⟩

/-- `uncontract(batch, gain_cache)` (partitioned_hypergraph.h:411-445) -/
def PUncontract {σ : Type} (C : ConInfo σ) (k : Nat) (o : Metrics.Obj) (batch : List (Nat × Nat)) (s s' : PHN σ) : Prop :=
  ∃ (ord : List (Nat × Nat)) (part : Assign) (t : PUSt σ), ord.Perm batch ∧ assignBatch ord s.P.part = some part ∧
    PUSteps C k o s.ini batch (s.begin part) t ∧ (∀ j < batch.length, t.x.tk j = .done) ∧ (∀ j, t.todo j = []) ∧
    s' = ⟨t.x.h, t.P, t.cache, s.ini⟩

/-! ### Restoring removed nets -/

/-- One iteration of the parallel loop of `restoreSinglePinAndParallelNets` (partitioned_hypergraph.h:507-543) for the
removed net `q.1` with representative `q.2`; `restoreSinglePinHyperedge` (km1_gain_cache.cpp:233-240, nothing to do
for cut and soed, cut_gain_cache.cpp:252-256, soed_gain_cache.cpp:330-334). Fails on a net without representative that
is not a single-pin net (an index out of range). -/
def restoreNet {σ : Type} (C : ConInfo σ) (k : Nat) (o : Metrics.Obj) (ini : Bool) (h : DH) (part : Assign) (q : Nat × Option Nat)
    (st : σ × (Nat → Int)) : Option (σ × (Nat → Int)) :=
  if h.size q.1 = 1 then
    match (h.edgePins q.1).getLast? with
    | none => none
    | some x => match part x with
      | none => none
      | some b => some (C.setPC (C.addBlock st.1 q.1 b) q.1 b 1,
          if ini = true ∧ o = .km1 then cacheAdd st.2 (benIdx k x b) (h.ew q.1) else st.2)
  else
    match q.2 with
    | none => none
    | some r => some ((C.connSet st.1 r).foldl (fun c b => C.setPC (C.addBlock c q.1 b) q.1 b (C.pinCount c r b)) st.1, st.2)

/-- the loop over the removed nets, in the order in which they are processed -/
def restoreNetsAll {σ : Type} (C : ConInfo σ) (k : Nat) (o : Metrics.Obj) (ini : Bool) (h : DH) (part : Assign) :
    RemovedNets → σ × (Nat → Int) → Option (σ × (Nat → Int))
  | [], st => some st
  | q :: l, st => match restoreNet C k o ini h part q st with
    | none => none
    | some st' => restoreNetsAll C k o ini h part l st'

/-! ### Uncoarsening -/

/-- One step of the n-level uncoarsening (nlevel_uncoarsener.cpp:139-215): a batch is uncontracted, removed nets are
restored, or a refinement algorithm is executed: it may initialise the gain cache or reset it, and it moves nodes
(by concurrent calls of `changeNodePart`, see Model/ConcurrentMoves.lean), and recomputes the penalty terms of the
moved nodes at its end. -/
inductive PUncStep {σ : Type} (C : ConInfo σ) (k : Nat) (o : Metrics.Obj) :
    List (List (List (Nat × Nat))) × PHN σ → List (List (List (Nat × Nat))) × PHN σ → Prop
  | batch (L : List (List (List (Nat × Nat)))) (B : List (List (Nat × Nat))) (b : List (Nat × Nat)) (s s' : PHN σ)
      (h : PUncontract C k o b s s') : PUncStep C k o (L ++ [B ++ [b]], s) (L ++ [B], s')
  | nets (L : List (List (List (Nat × Nat)))) (B : List (List (Nat × Nat))) (s : PHN σ) (h' : DH) (R : RemovedNets) (rest : List RemovedNets)
      (ord : List Nat) (rord : RemovedNets) (con : σ) (cache : Nat → Int) (hr : s.h.removed = R :: rest) (ho : ord.Perm ((List.range s.h.n).filter s.h.en))
      (hs : { s.h with removed := rest }.restoreNetsStep R ord = some h') (hro : rord.Perm R)
      (hc : restoreNetsAll C k o s.ini h' s.P.part rord (s.P.con, s.cache) = some (con, cache)) :
      PUncStep C k o (L ++ [B] ++ [[]], s) (L ++ [B], ⟨h', { s.P with con := con }, cache, s.ini⟩)
  | moves (L : List (List (List (Nat × Nat)))) (s : PHN σ) (as : List Act) (R : List Nat) (c1 c2 : CSt σ)
      (h1 : CSt.exec C s.h.hg k o { part := s.P.part, wt := s.P.wt, con := s.P.con, cache := s.cache, log := [], proc := fun _ => .idle, moved := fun _ => false } as = some c1)
      (hq : c1.quiescent s.h.hg = true) (h2 : CSt.exec C s.h.hg k o c1 (R.map Act.recompute) = some c2) (hR : ∀ v ∈ s.h.hg.nodes, c1.moved v = true → v ∈ R) :
      PUncStep C k o (L, s) (L, ⟨s.h, ⟨c2.part, c2.wt, c2.con⟩, if s.ini then c2.cache else s.cache, s.ini⟩)
  | init (L : List (List (List (Nat × Nat)))) (s : PHN σ) (threads : List Nat) (tasks : List InitTask) (hn : threads.Nodup)
      (ht : ∀ t ∈ tasks, match t with
        | .low _ u => u ∈ s.h.hg.nodes
        | .high u chunks => u ∈ s.h.hg.nodes ∧ (∀ c ∈ chunks, c.1 ∈ threads) ∧ (chunks.flatMap Prod.snd).Perm (s.h.hg.inc u))
      (hc : ∀ u ∈ s.h.hg.nodes, ∃ t ∈ tasks, t.node = u) :
      PUncStep C k o (L, s) (L, { s with cache := (initCache C s.h.hg k o s.P threads tasks s.cache).1, ini := true })
  | reset (L : List (List (List (Nat × Nat)))) (s : PHN σ) : PUncStep C k o (L, s) (L, { s with ini := false })

/-- several steps -/
inductive PUncSteps {σ : Type} (C : ConInfo σ) (k : Nat) (o : Metrics.Obj) :
    List (List (List (Nat × Nat))) × PHN σ → List (List (List (Nat × Nat))) × PHN σ → Prop
  | refl (x : List (List (List (Nat × Nat))) × PHN σ) : PUncSteps C k o x x
  | tail (x y z : List (List (List (Nat × Nat))) × PHN σ) (h : PUncSteps C k o x y) (h' : PUncStep C k o y z) : PUncSteps C k o x z

/-- The state in which the uncoarsening starts (nlevel_uncoarsener.cpp:73-87): the partition of the smallest
hypergraph is built from block ids `Φ`; the gain cache is allocated but not initialised. -/
def PHN.start {σ : Type} (C : ConInfo σ) (k : Nat) (con : σ) (h : DH) (Φ : Nat → Nat) (norder : List Nat) (order : Nat → List (List Nat)) (eorder : List Nat) : PHN σ :=
  ⟨h, PHG.build C h.hg k (PHG.init con) Φ norder order eorder, fun _ => 0, false⟩

end Dyn
end Verif
