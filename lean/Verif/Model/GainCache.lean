import Verif.Model.PartitionedHypergraph
import Verif.Model.Metrics
/-!
# Model of the attributed gains and gain caches (km1, cut, soed)

Source: `partition/refinement/gains/{km1,cut,soed}/*_attributed_gains.h` and `*_gain_cache.{h,cpp}`.
A gain cache is one flat array of atomic integers; a delta gain update is modelled as the list of
atomic operations it performs on that array, in program order.
-/
namespace Verif

/-- 0/1 value of a C++ `bool` in arithmetic -/
def b2i (p : Bool) : Int := if p then 1 else 0

/-- `Km1AttributedGains::gain` (km1_attributed_gains.h:39-44) -/
def attrKm1 (s : EdgeUpdate) : Int :=
  (if s.dstAfter = 1 then s.weight else 0) + (if s.srcAfter = 0 then -s.weight else 0)

/-- `CutAttributedGains::gain` (cut_attributed_gains.h:39-45); `edge_size - 1` is unsigned, hence the
guard `edge_size > 1`. -/
def attrCut (s : EdgeUpdate) : Int :=
  if s.size > 1 then b2i (s.srcAfter = s.size - 1) * s.weight - b2i (s.dstAfter = s.size) * s.weight
  else 0

/-- `SoedAttributedGains::gain` (soed_attributed_gains.h:39-56) -/
def attrSoed (s : EdgeUpdate) : Int :=
  let removes := b2i (s.dstAfter = s.size)
  let makes := b2i (s.srcAfter = s.size - 1)
  let inc := b2i (s.dstAfter = 1)
  let dec := b2i (s.srcAfter = 0)
  b2i (s.size > 1) *
    (-2 * removes * s.weight + 2 * makes * s.weight
      + -1 * (1 - removes) * dec * s.weight + 1 * (1 - makes) * inc * s.weight)

/-- the attributed gain of the objective in use -/
def attrGain : Metrics.Obj → EdgeUpdate → Int
  | .km1 => attrKm1
  | .cut => attrCut
  | .soed => attrSoed

/-- `penalty_index` (km1_gain_cache.h:279, cut_gain_cache.h:276, soed_gain_cache.h:286) -/
def penIdx (k u : Nat) : Nat := u * (k + 1)

/-- `benefit_index` (km1_gain_cache.h:284, cut_gain_cache.h:281, soed_gain_cache.h:291) -/
def benIdx (k u p : Nat) : Nat := u * (k + 1) + p + 1

/-- One atomic operation on the flat gain cache array: `fetch_add` of `amt` at `idx`, or the same
guarded by the test `partID(u) == blk`. -/
inductive CacheOp where
  | add (idx : Nat) (amt : Int)
  | addIf (u blk idx : Nat) (amt : Int)

/-- `Km1GainCache::deltaGainUpdate` (km1_gain_cache.cpp:125-162) -/
def km1Delta (k : Nat) (pins : List Nat) (s : EdgeUpdate) : List CacheOp :=
  (if s.srcAfter = 1 then pins.flatMap (fun u => [.addIf u s.src (penIdx k u) (-s.weight)])
   else if s.srcAfter = 0 then pins.flatMap (fun u => [.add (benIdx k u s.src) (-s.weight)])
   else []) ++
  (if s.dstAfter = 1 then pins.flatMap (fun u => [.add (benIdx k u s.dst) s.weight])
   else if s.dstAfter = 2 then pins.flatMap (fun u => [.addIf u s.dst (penIdx k u) s.weight])
   else [])

/-- `CutGainCache::deltaGainUpdate` (cut_gain_cache.cpp:128-170) -/
def cutDelta (k : Nat) (pins : List Nat) (s : EdgeUpdate) : List CacheOp :=
  if s.size > 1 then
    (if s.srcAfter = s.size - 1 then
      pins.flatMap (fun u => [.add (penIdx k u) (-s.weight), .add (benIdx k u s.src) s.weight])
     else if s.srcAfter = s.size - 2 then
      pins.flatMap (fun u => [.add (benIdx k u s.src) (-s.weight)])
     else []) ++
    (if s.dstAfter = s.size then
      pins.flatMap (fun u => [.add (penIdx k u) s.weight, .add (benIdx k u s.dst) (-s.weight)])
     else if s.dstAfter = s.size - 1 then
      pins.flatMap (fun u => [.add (benIdx k u s.dst) s.weight])
     else [])
  else []

/-- `SoedGainCache::deltaGainUpdate` (soed_gain_cache.cpp:133-199) -/
def soedDelta (k : Nat) (pins : List Nat) (s : EdgeUpdate) : List CacheOp :=
  if s.size > 1 then km1Delta k pins s ++ cutDelta k pins s else []

/-- the gain cache of an objective: its delta update -/
def gainDelta : Metrics.Obj → Nat → List Nat → EdgeUpdate → List CacheOp
  | .km1 => km1Delta
  | .cut => cutDelta
  | .soed => soedDelta

/-- multiplier of the weight of a net in the penalty term of a pin whose block contains `pc` of
the `size` pins: `recomputePenaltyTerm` (km1_gain_cache.h:243, cut_gain_cache.h:238-241,
soed_gain_cache.h:246-250) -/
def penMult : Metrics.Obj → Nat → Nat → Int
  | .km1, _, pc => if pc > 1 then 1 else 0
  | .cut, size, pc => if pc = size ∧ size > 1 then 1 else 0
  | .soed, size, pc => b2i (size > 1) * (b2i (pc > 1) + b2i (pc = size))

/-- `recomputePenaltyTerm`: loop over the incident nets -/
def recomputePenalty (o : Metrics.Obj) (H : HG) (pc : Nat → Nat → Nat) (part : Assign) (u : Nat) :
    Int :=
  match part u with
  | some from' => (H.inc u).foldl (fun p e =>
      p + penMult o (H.pins e).length (pc e from') * H.ew e) 0
  | none => 0

/-- Contribution of one net in `initializeGainCacheEntryForNode` (km1_gain_cache.cpp:241-260,
cut_gain_cache.cpp:247-275, soed_gain_cache.cpp:288-320) and, identically, in the lambda
`aggregate_contribution_of_he_for_node` used for high degree nodes (km1 :70-83, cut :67-85,
soed :68-87): the penalty and benefit aggregators before and after. `conn`, `cs`, `pc` are
`connectivity`, `connectivitySet` and `pinCountInPart` of the net. -/
def initEdgeContribution (o : Metrics.Obj) (size conn : Nat) (cs : List Nat) (pc : Nat → Nat)
    (ew : Int) (from' : Nat) (acc : Int × (Nat → Int)) : Int × (Nat → Int) :=
  let addB (f : Nat → Int) (b : Nat) (x : Int) : Nat → Int := fun b' => if b' = b then f b' + x else f b'
  match o with
  | .km1 =>
    (if pc from' > 1 then acc.1 + ew else acc.1, cs.foldl (fun f b => addB f b ew) acc.2)
  | .cut =>
    if size > 1 ∧ conn ≤ 2 then
      (if pc from' = size then acc.1 + ew else acc.1,
       cs.foldl (fun f b => if pc b = size - 1 then addB f b ew else f) acc.2)
    else acc
  | .soed =>
    if size > 1 then
      (acc.1 + (b2i (pc from' > 1) + b2i (pc from' = size)) * ew,
       cs.foldl (fun f b => addB f b ((1 + b2i (pc b = size - 1)) * ew)) acc.2)
    else acc

/-- the loop storing the aggregated values: one `store` per entry, the aggregator is reset to zero -/
def storeEntry (k u : Nat) (pen : Int) (agg : Nat → Int) (cache : Nat → Int) :
    (Nat → Int) × (Nat → Int) :=
  let cache := fun i => if i = penIdx k u then pen else cache i
  (List.range k).foldl (fun (r : (Nat → Int) × (Nat → Int)) b =>
    ((fun i => if i = benIdx k u b then r.2 b else r.1 i), (fun b' => if b' = b then 0 else r.2 b')))
    (cache, agg)

/-- `initializeGainCacheEntryForNode`: returns the new cache and the (reused) benefit aggregator. -/
def initEntry {σ : Type} (C : ConInfo σ) (H : HG) (k : Nat) (o : Metrics.Obj) (P : PHG σ)
    (r : (Nat → Int) × (Nat → Int)) (u : Nat) : (Nat → Int) × (Nat → Int) :=
  match P.part u with
  | none => r
  | some from' =>
    let a := (H.inc u).foldl (fun acc e => initEdgeContribution o (H.pins e).length
      (C.connectivity P.con e) (C.connSet P.con e) (C.pinCount P.con e) (H.ew e) from' acc) (0, r.2)
    storeEntry k u a.1 a.2 r.1

/-- One iteration of the first loop of `initializeGainCache` (km1_gain_cache.cpp:44-62): thread `t`
initialises the entry of node `u` with its own benefit aggregator `aggs t`. -/
def initLow {σ : Type} (C : ConInfo σ) (H : HG) (k : Nat) (o : Metrics.Obj) (P : PHG σ)
    (st : (Nat → Int) × (Nat → Nat → Int)) (t u : Nat) : (Nat → Int) × (Nat → Nat → Int) :=
  let r := initEntry C H k o P (st.1, st.2 t) u
  (r.1, fun t' => if t' = t then r.2 else st.2 t')

/-- One iteration of the second loop of `initializeGainCache` (km1_gain_cache.cpp:84-116 and its
cut/soed twins): the incident nets of `u` are split into `chunks`; each is aggregated by one thread
into its penalty aggregator (zero-initialised per node) and its benefit aggregator (shared with the
first loop); `threads` are the threads that own an aggregator. -/
def initHigh {σ : Type} (C : ConInfo σ) (H : HG) (k : Nat) (o : Metrics.Obj) (P : PHG σ)
    (threads : List Nat) (st : (Nat → Int) × (Nat → Nat → Int)) (u : Nat)
    (chunks : List (Nat × List Nat)) : (Nat → Int) × (Nat → Nat → Int) :=
  match P.part u with
  | none => st
  | some from' =>
    let q := chunks.foldl (fun (q : Nat → Int × (Nat → Int)) c =>
      let r := c.2.foldl (fun acc e => initEdgeContribution o (H.pins e).length
        (C.connectivity P.con e) (C.connSet P.con e) (C.pinCount P.con e) (H.ew e) from' acc) (q c.1)
      fun t => if t = c.1 then r else q t) (fun t => (0, st.2 t))
    -- store the combined penalty term; sum up and reset the benefit aggregators block by block
    let cache := fun i => if i = penIdx k u then (threads.map (fun t => (q t).1)).foldl (· + ·) 0
      else st.1 i
    (List.range k).foldl (fun (r : (Nat → Int) × (Nat → Nat → Int)) b =>
      ((fun i => if i = benIdx k u b then (threads.map (fun t => r.2 t b)).foldl (· + ·) 0 else r.1 i),
       (fun t b' => if t ∈ threads ∧ b' = b then 0 else r.2 t b'))) (cache, fun t => (q t).2)

/-- a task of `initializeGainCache` -/
inductive InitTask where
  | low (t u : Nat)
  | high (u : Nat) (chunks : List (Nat × List Nat))

/-- node initialised by a task -/
def InitTask.node : InitTask → Nat
  | .low _ u => u
  | .high u _ => u

/-- execution of a task -/
def InitTask.run {σ : Type} (C : ConInfo σ) (H : HG) (k : Nat) (o : Metrics.Obj) (P : PHG σ)
    (threads : List Nat) (st : (Nat → Int) × (Nat → Nat → Int)) :
    InitTask → (Nat → Int) × (Nat → Nat → Int)
  | .low t u => initLow C H k o P st t u
  | .high u chunks => initHigh C H k o P threads st u chunks

/-- `initializeGainCache`: the tasks in the order in which they are executed. Tasks of different
threads work on different nodes (disjoint cache entries) and different aggregators, so running the
tasks of the parallel loop one after the other in an arbitrary order loses no behaviour. -/
def initCache {σ : Type} (C : ConInfo σ) (H : HG) (k : Nat) (o : Metrics.Obj) (P : PHG σ)
    (threads : List Nat) (tasks : List InitTask) (cache : Nat → Int) :
    (Nat → Int) × (Nat → Nat → Int) :=
  tasks.foldl (InitTask.run C H k o P threads) (cache, fun _ _ => 0)

/-- `gain(u, to) = benefitTerm(u, to) - penaltyTerm(u)` (km1_gain_cache.h:165-170 etc.) -/
def cacheGain (k : Nat) (cache : Nat → Int) (u dst : Nat) : Int :=
  cache (benIdx k u dst) - cache (penIdx k u)

end Verif
