import Verif.Model.ConcurrentMoves
import Verif.Spec.Moves
/-!
# Model: global rollback of the FM algorithm

Models `mt-kahypar/partition/refinement/fm/global_rollback.{h,cpp}`, the rollback classes
`gains/{km1,cut,soed}/*_rollback.h`, the move tracker (`fm/fm_commons.h` 48-101) and the interleaving
with rebalancing moves (`fm/multitry_kway_fm.cpp`).

The `gain` member of a `Move` is kept in a separate array `gain : Nat → Int` indexed like
`moveOrder`.  Move ids are natural numbers; the maximum value of `MoveID` (uint32) is `maxID`.
-/
namespace Verif

/-- `std::numeric_limits<MoveID>::max()` -/
def maxID : Nat := 2 ^ 32 - 1

/-- `GlobalMoveTracker` (fm_commons.h:48-101); `order` contains the entries
`moveOrder[0 .. numPerformedMoves())`, so `runningMoveID = first + order.length`. -/
structure Tracker where
  order : List FMMove
  moveOf : Nat → Nat
  first : Nat

namespace Tracker

/-- constructor, fm_commons.h:54-57 -/
def init : Tracker := { order := [], moveOf := fun _ => 0, first := 1 }

/-- `runningMoveID` -/
def running (T : Tracker) : Nat := T.first + T.order.length

/-- `insertMove`, fm_commons.h:72-78 (the `fetch_add` fixes the slot; slots are disjoint) -/
def insertMove (T : Tracker) (m : FMMove) : Tracker :=
  { T with order := T.order ++ [m]
           moveOf := fun v => if v = m.node then T.running else T.moveOf v }

/-- `reset`, fm_commons.h:60-70; `n` is the size of `moveOrder` -/
def reset (n : Nat) (T : Tracker) : Tracker :=
  if T.running ≥ maxID - n - 20 then { order := [], moveOf := fun _ => 0, first := 1 }
  else { T with order := [], first := T.running + 1 }

/-- `wasNodeMovedInThisRound`, fm_commons.h:85-92, together with `getMove(moveOfNode[u])`: the id
and the move of `u`, if any. -/
def moveOfNode (T : Tracker) (u : Nat) : Option (Nat × Nat × Nat) :=
  let id := T.moveOf u
  if T.first ≤ id ∧ id < T.running then
    match T.order[id - T.first]? with
    | some m => match m.src with
      | some b => some (id, b, m.dst)
      | none => none
    | none => none
  else none

end Tracker

/-- `RecalculationData` of the three rollback classes (km1_rollback.h:58-76, cut_rollback.h:57-75,
soed_rollback.h:60-74): km1 uses the first three members, cut the last three, soed all. -/
structure RData where
  firstIn : Nat
  lastOut : Nat
  remaining : Nat
  firstOut : Nat
  lastIn : Nat
  movedOut : Nat

/-- default constructor and `reset()` -/
def RData.fresh : RData :=
  { firstIn := maxID, lastOut := 0, remaining := 0, firstOut := maxID, lastIn := 0, movedOut := 0 }

abbrev RTable := Nat → RData

def RTable.upd (r : RTable) (b : Nat) (f : RData → RData) : RTable :=
  fun c => if c = b then f (r c) else r c

namespace Rollback
open Metrics

/-- `updateMove` (km1_rollback.h:79-84, cut_rollback.h:78-84, soed_rollback.h:77-85) -/
def updateMove (id src dst : Nat) (r : RTable) : Obj → RTable
  | .km1 =>
    let r := r.upd dst (fun d => { d with firstIn := min d.firstIn id })
    r.upd src (fun d => { d with lastOut := max d.lastOut id })
  | .cut =>
    let r := r.upd src (fun d => { d with firstOut := min d.firstOut id })
    let r := r.upd dst (fun d => { d with lastIn := max d.lastIn id })
    r.upd src (fun d => { d with movedOut := d.movedOut + 1 })
  | .soed =>
    let r := r.upd dst (fun d => { d with firstIn := min d.firstIn id })
    let r := r.upd src (fun d => { d with lastOut := max d.lastOut id })
    let r := r.upd src (fun d => { d with firstOut := min d.firstOut id })
    let r := r.upd dst (fun d => { d with lastIn := max d.lastIn id })
    r.upd src (fun d => { d with movedOut := d.movedOut + 1 })

/-- `updateNonMovedPinInBlock` (km1_rollback.h:87-90, cut_rollback.h:86-89, soed_rollback.h:88-91) -/
def updateNonMoved (b : Nat) (r : RTable) : Obj → RTable
  | .km1 => r.upd b (fun d => { d with remaining := d.remaining + 1 })
  | .cut => r
  | .soed => r.upd b (fun d => { d with remaining := d.remaining + 1 })

/-- km1_rollback.h:103 -/
def km1Benefit (id src : Nat) (r : RTable) : Bool :=
  (r src).lastOut == id && decide ((r src).firstIn > id) && (r src).remaining == 0

/-- km1_rollback.h:117 -/
def km1Penalty (id dst : Nat) (r : RTable) : Bool :=
  (r dst).firstIn == id && decide ((r dst).lastOut < id) && (r dst).remaining == 0

/-- cut_rollback.h:97-105; `pcDst` is `phg.pinCountInPart(e, m.to)` -/
def cutBenefit (size pcDst id dst : Nat) (r : RTable) : Bool :=
  pcDst + (r dst).movedOut == size && (r dst).lastIn == id && decide (id < (r dst).firstOut)

/-- cut_rollback.h:114-122; `pcSrc` is `phg.pinCountInPart(e, m.from)` -/
def cutPenalty (size pcSrc id src : Nat) (r : RTable) : Bool :=
  pcSrc + (r src).movedOut == size && (r src).firstOut == id && decide (id > (r src).lastIn)

def bw (b : Bool) (w : Int) : Int := if b then w else 0

/-- `Rollback::benefit` -/
def benefit (w : Int) (size pcDst id src dst : Nat) (r : RTable) : Obj → Int
  | .km1 => bw (km1Benefit id src r) w
  | .cut => bw (cutBenefit size pcDst id dst r) w
  | .soed => bw (km1Benefit id src r) w + bw (cutBenefit size pcDst id dst r) w

/-- `Rollback::penalty` -/
def penalty (w : Int) (size pcSrc id src dst : Nat) (r : RTable) : Obj → Int
  | .km1 => bw (km1Penalty id dst r) w
  | .cut => bw (cutPenalty size pcSrc id src r) w
  | .soed => bw (km1Penalty id dst r) w + bw (cutPenalty size pcSrc id src r) w

variable (H : HG) (k : Nat) (o : Obj) (pc : Nat → Nat → Nat) (part : Assign) (T : Tracker)

/-- first loop of `recalculateGainForHyperedge` (global_rollback.cpp:218-228) -/
def auxData (r : RTable) (pins : List Nat) : RTable :=
  pins.foldl (fun r v => match T.moveOfNode v with
    | some (id, src, dst) => updateMove id src dst r o
    | none => match part v with
      | some b => updateNonMoved b r o
      | none => r) r

/-- amount added to the gain of a move by hyperedge `e` (global_rollback.cpp:236-247) -/
def edgeGain (e id src dst : Nat) (r : RTable) : Int :=
  let b := benefit (H.ew e) (H.pins e).length (pc e dst) id src dst r o
  let p := penalty (H.ew e) (H.pins e).length (pc e src) id src dst r o
  (if b > 0 then b else 0) - (if p > 0 then p else 0)

/-- second loop (global_rollback.cpp:231-249); the atomic additions commute, so executing the pins of
one hyperedge in one step loses nothing -/
def distribute (e : Nat) (r : RTable) (gain : Nat → Int) (pins : List Nat) : Nat → Int :=
  pins.foldl (fun g v => match T.moveOfNode v with
    | some (id, src, dst) => fun i =>
      if i = id - T.first then g i + edgeGain H o pc e id src dst r else g i
    | none => g) gain

/-- the final reset loop (global_rollback.cpp:251-266) -/
def resetTable (e : Nat) (r : RTable) : RTable :=
  if k ≤ 2 * (H.pins e).length then
    (List.range k).foldl (fun r b => r.upd b (fun _ => RData.fresh)) r
  else
    (H.pins e).foldl (fun r v => match T.moveOfNode v with
      | some (_, src, dst) => (r.upd src (fun _ => RData.fresh)).upd dst (fun _ => RData.fresh)
      | none => match part v with
        | some b => r.upd b (fun _ => RData.fresh)
        | none => r) r

/-- `recalculateGainForHyperedge` (global_rollback.cpp:210-267): new table of the executing thread and
new gains -/
def recalcEdge (e : Nat) (r : RTable) (gain : Nat → Int) : RTable × (Nat → Int) :=
  let r1 := auxData o part T r (H.pins e)
  (resetTable H k part T e r1, distribute H o pc T e r1 gain (H.pins e))

/-- a thread `te.1` (with its own table) processes hyperedge `te.2` -/
def recalcStep (st : (Nat → RTable) × (Nat → Int)) (te : Nat × Nat) : (Nat → RTable) × (Nat → Int) :=
  let x := recalcEdge H k o pc part T te.2 (st.1 te.1) st.2
  (fun t => if t = te.1 then x.1 else st.1 t, x.2)

/-- `recalculateGains` (global_rollback.cpp:345-388): the gains are set to zero, then hyperedges are
processed; `sched` lists which thread processes which hyperedge, in which order. -/
def recalculateGains (sched : List (Nat × Nat)) (r : Nat → RTable) : (Nat → RTable) × (Nat → Int) :=
  sched.foldl (recalcStep H k o pc part T) (r, fun _ => 0)

/-! ### Selection of the hyperedges, `iter_moves_on_recalc` -/

/-- One (moved node, incident hyperedge) pair: next step is the load (372), the exchange (373) with
the loaded value, or finished with / without having claimed the hyperedge. -/
inductive ClaimPC where
  | load
  | xchg (expected : Nat)
  | done (claimed : Bool)
  deriving DecidableEq

/-- `last_recalc_round` and the pairs with their program counters; `x` is `uniqueEdgeID(e)` -/
structure ClaimSt where
  last : Nat → Nat
  tasks : List (Nat × Nat × ClaimPC)

/-- one atomic step of the `i`-th pair (global_rollback.cpp:373-377) -/
def ClaimSt.step (round : Nat) (s : ClaimSt) (i : Nat) : ClaimSt :=
  match s.tasks[i]? with
  | some (e, x, .load) =>
    if s.last x < round then { s with tasks := s.tasks.set i (e, x, .xchg (s.last x)) }
    else { s with tasks := s.tasks.set i (e, x, .done false) }
  | some (e, x, .xchg expected) =>
    { last := fun y => if y = x then round else s.last y
      tasks := s.tasks.set i (e, x, .done (decide (s.last x = expected))) }
  | _ => s

def ClaimSt.run (round : Nat) (s : ClaimSt) (is : List Nat) : ClaimSt := is.foldl (step round) s

/-- the pairs visited by the nested loop of lines 369-380: hyperedges incident to nodes with a valid
move -/
def claimTasks (uid : Nat → Nat) : List (Nat × Nat × ClaimPC) :=
  T.order.flatMap (fun m => match T.moveOfNode m.node with
    | some _ => (H.inc m.node).map (fun e => (e, uid e, .load))
    | none => [])

/-- hyperedges for which the pair succeeded in claiming -/
def ClaimSt.claimed (s : ClaimSt) : List Nat :=
  s.tasks.filterMap (fun t => match t with | (e, _, .done true) => some e | _ => none)

/-- the round counter after `recalculateGains` (382-385), uint32 -/
def nextRound (round : Nat) : Nat := (round + 1) % 2 ^ 32

/-! ### Best prefix: `BalanceAndBestIndexScan` (global_rollback.cpp:40-174) -/

/-- `Prefix` (45-57) -/
structure Prefix where
  gain : Int
  best : Nat
  heaviest : Int
  deriving DecidableEq

/-- `std::numeric_limits<HypernodeWeight>::max()` -/
def maxHNW : Int := 2 ^ 31 - 1

/-- default member initialisers -/
def Prefix.default : Prefix := { gain := 0, best := 0, heaviest := maxHNW }

/-- `operator<` (52-56) -/
def Prefix.lt (a b : Prefix) : Bool :=
  decide (a.gain > b.gain) || (a.gain == b.gain &&
    (decide (a.heaviest < b.heaviest) || (a.heaviest == b.heaviest && decide (a.best < b.best))))

/-- `std::min(a, b)`: `b` if `b < a`, else `a` -/
def Prefix.min (a b : Prefix) : Prefix := if b.lt a then b else a

/-- a scan body: `gain_sum` and `part_weights` -/
structure Body where
  sum : Int
  wts : Nat → Int

/-- state of `tbb::parallel_scan`: bodies and the thread local `local_best` (absent threads have the
default value) -/
structure BScan where
  body : Nat → Body
  best : Nat → Prefix

/-- operations performed by `parallel_scan`; `t` is the executing thread -/
inductive BStep where
  | split (c : Nat)
  | pre (c l r : Nat)
  | fin (c l r t : Nat)
  | join (right left : Nat)
  | assign (c d : Nat)

variable (nw : Nat → Int) (ms : List FMMove) (gain : Nat → Int) (Wmax : Nat → Int)

def addW (W : Nat → Int) (b : Nat) (x : Int) : Nat → Int := fun c => if c = b then W c + x else W c

/-- pre-scan loop (87-96) -/
def preScan (l n : Nat) (b : Body) : Body :=
  (List.range' l n).foldl (fun b i => match ms[i]? with
    | some m => match m.src with
      | some src => { sum := b.sum + gain i,
                      wts := addW (addW b.wts src (-nw m.node)) m.dst (nw m.node) }
      | none => b
    | none => b) b

/-- `size_t overloaded` of the final scan (107-113) -/
def countOver (W : Nat → Int) : Nat := (List.range k).countP (fun b => decide (W b > Wmax b))

/-- loop state of the final scan -/
structure FinSt where
  body : Body
  over : Nat
  cur : Prefix

/-- `*std::max_element(part_weights.begin(), part_weights.end())` -/
def maxElement (W : Nat → Int) : Int :=
  ((List.range k).map W).foldl (fun a b => if a < b then b else a) (W 0)

/-- one iteration of the final scan (116-139); `overloaded` is a `size_t`, decremented only if a
block stops being overloaded -/
def finIter (s : FinSt) (i : Nat) : FinSt := match ms[i]? with
  | some m => match m.src with
    | some src =>
      let sum := s.body.sum + gain i
      let fromOver := decide (s.body.wts src > Wmax src)
      let w1 := addW s.body.wts src (-nw m.node)
      let o1 := if fromOver && decide (w1 src ≤ Wmax src) then s.over - 1 else s.over
      let toOver := decide (w1 m.dst > Wmax m.dst)
      let w2 := addW w1 m.dst (nw m.node)
      let o2 := if !toOver && decide (w2 m.dst > Wmax m.dst) then o1 + 1 else o1
      let cur := if o2 == 0 && decide (sum ≥ s.cur.gain) then
          Prefix.min s.cur { gain := sum, best := i + 1, heaviest := maxElement k w2 }
        else s.cur
      { body := { sum := sum, wts := w2 }, over := o2, cur := cur }
    | none => s
  | none => s

/-- final scan (106-145) -/
def finScan (l n : Nat) (b : Body) (lb : Prefix) : Body × Prefix :=
  let s := (List.range' l n).foldl (finIter k nw ms gain Wmax)
    { body := b, over := countOver k Wmax b.wts, cur := Prefix.default }
  (s.body, if s.cur.best ≠ 0 then Prefix.min lb s.cur else lb)

/-- one operation of `parallel_scan`: splitting constructor (65-71), the two `operator()`,
`reverse_join` (100-105), `assign` (147-149: copies only `gain_sum`) -/
def BScan.step (s : BScan) : BStep → BScan
  | .split c => { s with body := fun x => if x = c then { sum := 0, wts := fun _ => 0 } else s.body x }
  | .pre c l r => { s with body := fun x =>
      if x = c then preScan nw ms gain l (r - l) (s.body c) else s.body x }
  | .fin c l r t =>
    let y := finScan k nw ms gain Wmax l (r - l) (s.body c) (s.best t)
    { body := fun x => if x = c then y.1 else s.body x
      best := fun x => if x = t then y.2 else s.best x }
  | .join right left => { s with body := fun x => if x = right then
      { sum := (s.body right).sum + (s.body left).sum
        wts := fun b => (s.body right).wts b + (s.body left).wts b } else s.body x }
  | .assign c d => { s with body := fun x => if x = c then
      { s.body c with sum := (s.body d).sum } else s.body x }

/-- `tbb::parallel_scan` on a body constructed with `part_weights` (73-84) -/
def BScan.run (W : Nat → Int) (steps : List BStep) : BScan :=
  steps.foldl (BScan.step k nw ms gain Wmax)
    { body := fun _ => { sum := 0, wts := W }, best := fun _ => Prefix.default }

/-- `finalize` (151-157); `threads` are the threads with a `local_best` entry, in iteration order -/
def finalize (W : Nat → Int) (best : Nat → Prefix) (threads : List Nat) : Prefix :=
  threads.foldl (fun res t => Prefix.min res (best t))
    { gain := 0, best := 0, heaviest := maxElement k W }

end Rollback

/-- The contract of `tbb::parallel_scan` on `[0, n)` (ghost state): interval accumulated by each
usable body, in positions shifted by one: position 0 stands for the initial value of the body passed by
the user, position `i+1` for index `i`.  `none`: the body must not be used any more. -/
structure BGhost where
  cov : Nat → Option (Nat × Nat)
  done : Nat → Bool

namespace BGhost
open Rollback

def init : BGhost := { cov := fun c => if c = 0 then some (0, 1) else none, done := fun _ => false }

/-- A new body starts empty; a body is only extended by the range directly following its interval; a
range is final-scanned once, by a body that has accumulated everything to its left; `reverse_join`
merges the interval directly to the left; `assign` is only used to hand the result over to the user's
body, which does not scan afterwards. -/
inductive Step (n : Nat) : BGhost → BStep → BGhost → Prop where
  | split {g : BGhost} (c p : Nat) :
      Step n g (.split c) { g with cov := fun x => if x = c then some (p + 1, p + 1) else g.cov x }
  | pre {g : BGhost} {c l r a : Nat} : g.cov c = some (a, l + 1) → l ≤ r → r ≤ n →
      Step n g (.pre c l r) { g with cov := fun x => if x = c then some (a, r + 1) else g.cov x }
  | fin {g : BGhost} {c l r t : Nat} : g.cov c = some (0, l + 1) → l ≤ r → r ≤ n →
      (∀ i, l ≤ i → i < r → g.done i = false) →
      Step n g (.fin c l r t)
        { cov := fun x => if x = c then some (0, r + 1) else g.cov x
          done := fun i => if l ≤ i ∧ i < r then true else g.done i }
  | join {g : BGhost} {right left a b c : Nat} : right ≠ left → g.cov left = some (a, b) →
      g.cov right = some (b, c) →
      Step n g (.join right left) { g with cov := fun x => if x = right then some (a, c) else g.cov x }
  | assign {g : BGhost} {c d : Nat} :
      Step n g (.assign c d) { g with cov := fun x => if x = c then none else g.cov x }

inductive Steps (n : Nat) : BGhost → List BStep → BGhost → Prop where
  | nil (g : BGhost) : Steps n g [] g
  | cons {g g' g'' : BGhost} {s : BStep} {ss : List BStep} :
      Step n g s g' → Steps n g' ss g'' → Steps n g (s :: ss) g''

/-- every index was final-scanned -/
def Complete (n : Nat) (g : BGhost) : Prop := ∀ i < n, g.done i = true

end BGhost

namespace Rollback

/-- node moves started by the final `parallel_for` (global_rollback.cpp:196-201): all valid moves with
index at least `best` are reverted (`changeNodePart(u, m.to, m.from)` without weight limit). -/
def reverts (ms : List FMMove) (best : Nat) : List Act :=
  (ms.drop best).filterMap (fun m => m.src.map (fun b => Act.start m.node b maxHNW))

/-- the starts in a schedule -/
def startsOf (as : List Act) : List Act :=
  as.filter (fun a => match a with | .start _ _ _ => true | _ => false)

/-- the entry recorded by one action: the callback `report_success` of an accepted call inserts the
move into the tracker (localized_kway_fm_core.cpp:190-195) -/
def recOf {σ : Type} (H : HG) (s : CSt σ) : Act → List FMMove
  | .start u dst lim =>
    if s.wt dst + H.nw u ≤ lim then [{ node := u, src := s.part u, dst := dst }] else []
  | _ => []

/-- moves recorded during a schedule of concurrent moves -/
def recorded {σ : Type} (C : ConInfo σ) (H : HG) (k : Nat) (o : Metrics.Obj) :
    CSt σ → List Act → List FMMove
  | _, [] => []
  | s, a :: as =>
    match CSt.step C H k o s a with
    | some s' => recOf H s a ++ recorded C H k o s' as
    | none => []

/-- Which thread processes which hyperedge in `recalculateGains`.  `iterMoves`
(`iter_moves_on_recalc`): the hyperedges claimed in some interleaving `is` of the tests (369-380);
`allEdges`: the loop of line 387 (there is no removed hyperedge). -/
inductive RecalcSched (H : HG) (T : Tracker) (round : Nat) (last : Nat → Nat) (sched : List (Nat × Nat)) : Prop where
  | iterMoves (is : List Nat)
      (finished : ∀ t ∈ (ClaimSt.run round { last := last, tasks := claimTasks H T id } is).tasks, ∃ c, t.2.2 = .done c)
      (perm : (sched.map Prod.snd).Perm (ClaimSt.run round { last := last, tasks := claimTasks H T id } is).claimed)
  | allEdges (perm : (sched.map Prod.snd).Perm H.edges)

/-- lines 184-191 of `revertToBestPrefixParallel`: recompute gains, scan, finalize -/
def bestPrefix (H : HG) (k : Nat) (o : Metrics.Obj) (pc : Nat → Nat → Nat) (part : Assign) (T : Tracker)
    (W Wmax : Nat → Int) (sched : List (Nat × Nat)) (steps : List BStep) (threads : List Nat) : Prefix :=
  let gain := (recalculateGains H k o pc part T sched (fun _ _ => RData.fresh)).2
  finalize k W (BScan.run k H.nw T.order gain Wmax W steps).best threads

/-! ### `revertToBestPrefixSequential` (global_rollback.cpp:391-461) -/

/-- state of the sequential roll-forward loop (417-450) -/
structure SeqSt (σ : Type) where
  st : CSt σ
  over : Nat
  sum : Int
  bestGain : Int
  best : Nat

/-- One iteration (424-450).  `seg` are the atomic steps of the call to `changeNodePart`; the call
returns before the loop continues.  The callback sums up the attributed gains of the updates of this
call, i.e. of the new entries of `log`. -/
def seqIter {σ : Type} (C : ConInfo σ) (H : HG) (k : Nat) (o : Metrics.Obj) (Wmax : Nat → Int)
    (ms : List FMMove) (segs : Nat → List Act) (x : SeqSt σ) (i : Nat) : Option (SeqSt σ) :=
  match ms[i]? with
  | some m => match m.src with
    | some src => match CSt.exec C H k o x.st (segs i) with
      | some s' =>
        if s'.quiescent H then
          let sum := x.sum - ((s'.log.drop x.st.log.length).map (attrGain o)).sum
          let fromOver := decide (x.st.wt src > Wmax src)
          let toOver := decide (x.st.wt m.dst > Wmax m.dst)
          let o1 := if fromOver && decide (s'.wt src ≤ Wmax src) then x.over - 1 else x.over
          let o2 := if !toOver && decide (s'.wt m.dst > Wmax m.dst) then o1 + 1 else o1
          if o2 == 0 && decide (sum > x.bestGain) then
            some { st := s', over := o2, sum := sum, bestGain := sum, best := i + 1 }
          else some { x with st := s', over := o2, sum := sum }
        else none
      | none => none
    | none => some x
  | none => some x

/-- the whole loop, from the state after all moves were reverted -/
def seqForward {σ : Type} (C : ConInfo σ) (H : HG) (k : Nat) (o : Metrics.Obj) (Wmax : Nat → Int)
    (ms : List FMMove) (segs : Nat → List Act) (s : CSt σ) : Nat → Option (SeqSt σ)
  | 0 => some { st := s, over := countOver k Wmax s.wt, sum := 0, bestGain := 0, best := 0 }
  | n + 1 => (seqForward C H k o Wmax ms segs s n).bind (fun x => seqIter C H k o Wmax ms segs x n)

end Rollback
end Verif
