import Verif.Model.FlowScheduler
import Mathlib.Data.List.Sort
/-!
# Model of the deterministic flow-based refinement

* `partition/refinement/flows/deterministic/participation_scheduler.{h,cpp}`
* `partition/refinement/flows/deterministic/deterministic_flow_refinement_scheduler.cpp`
* `partition/refinement/flows/quotient_graph.{h,cpp}`

Not modelled: the computation of the moves of a block pair (region growing and maximum flow; a parameter `flow` that may depend on the partition and on
the sorted list of the cut hyperedges of the pair), the variant for the Steiner tree metric (moves are applied sequentially), timers, 32-bit overflow.
-/
namespace Verif
namespace DFlow
open DetLP (Mv)

/-- Input of the refinement. `thr` is `cut_he_threshold` (participation_scheduler.cpp:145-147: 0 or 10), `skip` is `skip_unpromising_blocks`, `minImp` is
`min_improvement` (deterministic_flow_refinement_scheduler.cpp:74). `flow i j Φ es` are the moves computed for blocks `i`, `j` (lines 103-116): the
composition of `ProblemConstruction::construct` and `FlowRefiner::refine`. -/
structure Cfg where
  fc : Flow.Cfg
  thr : Int
  skip : Bool
  minImp : Int
  flow : Nat → Nat → Assign → List Nat → List Mv

/-- write one entry of an array -/
def set {α : Type} (f : Nat → α) (t : Nat) (a : α) : Nat → α := fun u => if u = t then a else f u

/-! ### Quotient graph -/

/-- `QuotientGraphEdge` (quotient_graph.h:53-135): `cut_hes`, `cut_he_weight`, `num_improvements_found`, `total_improvement` of each pair `i < j` -/
structure QG where
  cut : Nat → Nat → List Nat
  weight : Nat → Nat → Int
  nimp : Nat → Nat → Nat
  timp : Nat → Nat → Int

/-- `addHyperedge` for blocks `a`, `b` (quotient_graph.cpp:40-43, 79-80): an append to a concurrent vector and an atomic addition. The two operations are
not observed between them, they are one step here. -/
def QG.add (H : HG) (q : QG) (a b e : Nat) : QG :=
  { q with cut := Flow.addCut q.cut a b e,
           weight := fun i j => if i = min a b ∧ j = max a b then q.weight i j + H.ew e else q.weight i j }

/-- `reportImprovement` (quotient_graph.h:69-74) -/
def QG.report (q : QG) (i j : Nat) (d : Int) : QG :=
  if d > 0 then
    { q with nimp := fun a b => if a = i ∧ b = j then q.nimp a b + 1 else q.nimp a b,
             timp := fun a b => if a = i ∧ b = j then q.timp a b + d else q.timp a b }
  else q

/-- the calls of `addHyperedge` made by `addNewCutHyperedge(he, block)` (quotient_graph.cpp:77-82) -/
def pushesOf {σ : Type} (C : ConInfo σ) (con : σ) (e b : Nat) : List (Nat × Nat × Nat) :=
  ((C.connSet con e).filter (fun b' => b' ≠ b)).map (fun b' => (b, b', e))

/-- the calls of `addHyperedge` made by `initialize` for one hyperedge (quotient_graph.cpp:98-105) -/
def initPushes {σ : Type} (C : ConInfo σ) (con : σ) (e : Nat) : List (Nat × Nat × Nat) :=
  (C.connSet con e).flatMap (fun i => ((C.connSet con e).filter (fun j => i < j)).map (fun j => (i, j, e)))

/-- calls of `addHyperedge`, in some order -/
def addAll (H : HG) (q : QG) (ps : List (Nat × Nat × Nat)) : QG := ps.foldl (fun q p => q.add H p.1 p.2.1 p.2.2) q

/-! ### Participation scheduler -/

/-- members of `ParticipationScheduler` (participation_scheduler.h:87-94) -/
structure Sch where
  active : Nat → Bool
  next : Nat → Bool
  done : Nat → Nat → Bool
  parts : Nat → Nat
  pairs : Nat → List Nat
  round : Nat

/-- `isEligible` (participation_scheduler.cpp:144-155) -/
def eligible (c : Cfg) (h : Sch) (q : QG) (i j : Nat) : Bool :=
  (h.active i || h.active j) && decide (q.weight i j > c.thr) && (!c.skip || (h.round == 0 || decide (q.nimp i j > 0)))

/-- the loops `for i < k - 1, for i < j < k` (participation_scheduler.cpp:69-70) -/
def allPairs (k : Nat) : List (Nat × Nat) := (List.range (k - 1)).flatMap (fun i => (List.range (k - (i + 1))).map (fun d => (i, i + 1 + d)))

/-- comparator of the active pairs of block `i` (participation_scheduler.cpp:84-93) -/
def better (q : QG) (i l r : Nat) : Prop :=
  q.timp (min i l) (max i l) > q.timp (min i r) (max i r) ∨
  (q.timp (min i l) (max i l) = q.timp (min i r) (max i r) ∧
    (q.weight (min i l) (max i l) > q.weight (min i r) (max i r) ∨
     (q.weight (min i l) (max i l) = q.weight (min i r) (max i r) ∧ l > r)))

instance (q : QG) (i l r : Nat) : Decidable (better q i l r) := by unfold better; infer_instance

/-- `resetForNewRoundImpl` (participation_scheduler.cpp:55-95); `std::sort` is insertion sort here, the comparator is a strict total order on
distinct blocks -/
def resetImpl (c : Cfg) (h : Sch) (q : QG) : Sch :=
  -- lines 56-66
  let h1 : Sch := { active := h.next, next := fun _ => false, done := fun _ _ => false, parts := fun _ => 0, pairs := fun _ => [], round := h.round }
  -- lines 69-79
  let h2 := (allPairs c.fc.k).foldl (fun h p =>
    if eligible c h q p.1 p.2 then
      { h with parts := let f := set h.parts p.1 (h.parts p.1 + 1); set f p.2 (f p.2 + 1),
               pairs := let f := set h.pairs p.1 (h.pairs p.1 ++ [p.2]); set f p.2 (f p.2 ++ [p.1]) }
    else h) h1
  -- lines 82-94
  { h2 with pairs := fun i => (h2.pairs i).insertionSort (fun l r => ¬ better q i r l) }

/-- `initialize` (participation_scheduler.cpp:43-48) -/
def initSch (c : Cfg) (h : Sch) (q : QG) : Sch := resetImpl c { h with next := fun _ => true, round := 0 } q

/-- `resetForNewRound` (participation_scheduler.cpp:50-53) -/
def resetRound (c : Cfg) (h : Sch) (q : QG) : Sch := resetImpl c { h with round := h.round + 1 } q

/-- comparator of the blocks (participation_scheduler.cpp:108-111), as `lhs` not after `rhs` -/
def moreParts (f : Nat → Nat) (l r : Nat) : Prop := f l > f r ∨ (f l = f r ∧ l ≤ r)

instance (f : Nat → Nat) (l r : Nat) : Decidable (moreParts f l r) := by unfold moreParts; infer_instance

/-- the test for a partner of block `b0` (participation_scheduler.cpp:122-125) -/
def usable (c : Cfg) (q : QG) (h : Sch) (scheduled : Nat → Bool) (b0 b1 : Nat) : Bool :=
  !scheduled b1 && (eligible c h q (min b0 b1) (max b0 b1) && !h.done (min b0 b1) (max b0 b1))

/-- the assignments when a pair is scheduled (participation_scheduler.cpp:128-130) -/
def take (h : Sch) (i j : Nat) : Sch :=
  { h with parts := let f := set h.parts i (h.parts i - 1); set f j (f j - 1),
           done := fun a b => if a = i ∧ b = j then true else h.done a b }

/-- the greedy loop (participation_scheduler.cpp:116-139) -/
def matchLoop (c : Cfg) (q : QG) : List Nat → Sch → (Nat → Bool) → List (Nat × Nat) → Sch × List (Nat × Nat)
  | [], h, _, tasks => (h, tasks)
  | b0 :: rest, h, scheduled, tasks =>
    if scheduled b0 then matchLoop c q rest h scheduled tasks
    else
      match (h.pairs b0).find? (fun b1 => usable c q h scheduled b0 b1) with
      | some b1 =>
        let tasks' := tasks ++ [(min b0 b1, max b0 b1)]
        if tasks'.length = c.fc.k / 2 then (take h (min b0 b1) (max b0 b1), tasks')
        else matchLoop c q rest (take h (min b0 b1) (max b0 b1)) (set (set scheduled b0 true) b1 true) tasks'
      | none => if tasks.length = c.fc.k / 2 then (h, tasks) else matchLoop c q rest h scheduled tasks

/-- `getNextMatching` (participation_scheduler.cpp:97-142) -/
def nextMatching (c : Cfg) (h : Sch) (q : QG) : Sch × List (Nat × Nat) :=
  let sorted := ((List.range c.fc.k).filter (fun i => h.parts i > 0)).insertionSort (moreParts h.parts)
  matchLoop c q sorted h (fun _ => false) []

/-! ### `reportResults`: writes to a `std::vector<bool>` -/

/-- `_active_blocks_next_round` while tasks report their results (participation_scheduler.h:71-76). The vector stores 64 flags in one word; setting a flag
reads the word and writes it back. `todo t` are the blocks still to be marked by task `t`, `reg t` the word it has read. -/
structure FlagSt where
  word : Nat → Bool
  todo : Nat → List Nat
  reg : Nat → Option (Nat → Bool)

/-- one memory access of task `t` -/
def flagStep (x : FlagSt) (t : Nat) : Option FlagSt :=
  match x.todo t with
  | [] => none
  | b :: rest =>
    match x.reg t with
    | none => some { x with reg := set x.reg t (some x.word) }
    | some w => some { word := fun b' => if b' / 64 = b / 64 then (if b' = b then true else w b') else x.word b',
                       todo := set x.todo t rest, reg := set x.reg t none }

def flagExec (x : FlagSt) : List Nat → Option FlagSt
  | [] => some x
  | t :: ts => match flagStep x t with
    | some y => flagExec y ts
    | none => none

/-! ### Applying the moves of a matching -/

/-- State while the tasks of a matching are applied: remaining moves, node of the running `changeNodePart` call and the updates passed to `delta_func`, of
each task. -/
structure TSt (σ : Type) where
  s : CSt σ
  todo : Nat → List Mv
  cur : Nat → Option Nat
  logs : Nat → List EdgeUpdate

variable {σ : Type}

/-- one atomic step of `applyMoves` of task `t` (deterministic_flow_refinement_scheduler.cpp:243-258) -/
def tstep (C : ConInfo σ) (c : Cfg) (x : TSt σ) (t : Nat) : Option (TSt σ) :=
  match x.cur t with
  | some u =>
    match CSt.step C c.fc.H c.fc.k c.fc.o x.s (.tick u) with
    | some s' => some { x with s := s', cur := set x.cur t (if s'.isIdle u then none else some u),
                               logs := set x.logs t (x.logs t ++ s'.log.drop x.s.log.length) }
    | none => none
  | none =>
    match x.todo t with
    | [] => none
    | m :: rest =>
      -- line 245
      if m.src = m.dst then some { x with todo := set x.todo t rest }
      else match CSt.step C c.fc.H c.fc.k c.fc.o x.s (.start m.node m.dst Rollback.maxHNW) with
        | some s' => some { x with s := s', todo := set x.todo t rest, cur := set x.cur t (some m.node) }
        | none => none

def texec (C : ConInfo σ) (c : Cfg) (x : TSt σ) : List Nat → Option (TSt σ)
  | [] => some x
  | t :: ts => match tstep C c x t with
    | some y => texec C c y ts
    | none => none

/-- no task has work left -/
def TSt.finished (x : TSt σ) (n : Nat) : Bool := (List.range n).all (fun t => (x.todo t).isEmpty && (x.cur t).isNone)

/-- `improvement` of a task (line 251) -/
def imp (o : Metrics.Obj) (log : List EdgeUpdate) : Int := -(log.map (attrGain o)).sum

/-- the entries `_new_cut_hes` of a task (lines 248-250) -/
def newCuts (log : List EdgeUpdate) : List (Nat × Nat) := log.filterMap (fun u => if u.dstAfter = 1 then some (u.he, u.dst) else none)

/-- State between two matchings. `delta` is `round_delta`, `total` is `overall_delta`. -/
structure DSt (σ : Type) where
  s : CSt σ
  q : QG
  h : Sch
  delta : Int
  total : Int

/-- Scheduling decisions for one matching: the order of `resulting_moves` (lines 107, 118: by the times at which the searches reserve an entry), the interleaving of the
tasks, the order of the insertions into the quotient graph and the interleaving of the accesses to `_active_blocks_next_round`. -/
structure Choice where
  order : List (Nat × Nat)
  sched : List Nat
  pushes : List (Nat × Nat × Nat)
  flags : List Nat

/-- `construct` sorts `cut_hes` in place (problem_construction.cpp:110-112) -/
def sortCut (q : QG) (ts : List (Nat × Nat)) : QG :=
  { q with cut := fun i j => if (i, j) ∈ ts then (q.cut i j).insertionSort (· ≤ ·) else q.cut i j }

/-- the moves of task `t` -/
def movesOf (c : Cfg) (Φ : Assign) (q : QG) (ts : List (Nat × Nat)) (t : Nat) : List Mv :=
  match ts[t]? with
  | some p => c.flow p.1 p.2 Φ ((q.cut p.1 p.2).insertionSort (· ≤ ·))
  | none => []

/-- before the first move is applied -/
def taskStart (c : Cfg) (s : CSt σ) (q : QG) (ts : List (Nat × Nat)) : TSt σ := ⟨s, movesOf c s.part q ts, fun _ => none, fun _ => []⟩

/-- the reported improvements of the tasks -/
def impsOf (c : Cfg) (x : TSt σ) (ts : List (Nat × Nat)) : List Int := (List.range ts.length).map (fun t => imp c.fc.o (x.logs t))

/-- the blocks marked by the tasks -/
def flagStart (word : Nat → Bool) (ts : List (Nat × Nat)) (imps : List Int) : FlagSt :=
  ⟨word, fun t => match ts[t]?, imps[t]? with
    | some p, some d => if d > 0 then [p.1, p.2] else []
    | _, _ => [], fun _ => none⟩

def FlagSt.finished (x : FlagSt) (n : Nat) : Bool := (List.range n).all (fun t => (x.todo t).isEmpty)

/-- One pass through the loop over the matchings (deterministic_flow_refinement_scheduler.cpp:86-156) for the matching `ms`; `none` if `ch` is not a
possible sequence of decisions. -/
def matching (C : ConInfo σ) (c : Cfg) (x : DSt σ) (ms : List (Nat × Nat)) (ch : Choice) : Option (DSt σ) :=
  if ch.order.isPerm ms then
    match texec C c (taskStart c x.s x.q ch.order) ch.sched with
    | none => none
    | some y =>
      if y.finished ch.order.length then
        let imps := impsOf c y ch.order
        -- lines 128-130
        let q1 := (ch.order.zip imps).foldl (fun q p => q.report p.1.1 p.1.2 p.2) (sortCut x.q ch.order)
        match flagExec (flagStart x.h.next ch.order imps) ch.flags with
        | none => none
        | some f =>
          if f.finished ch.order.length then
            -- lines 152-156
            let ps := (List.range ch.order.length).flatMap (fun t => (newCuts (y.logs t)).flatMap (fun p => pushesOf C y.s.con p.1 p.2))
            if ch.pushes.isPerm ps then
              some { x with s := y.s, q := addAll c.fc.H q1 ch.pushes, h := { x.h with next := f.word }, delta := x.delta + imps.sum }
            else none
          else none
      else none
  else none

/-- the loop over the matchings of a round (lines 80-159), beginning with a call of `getNextMatching`; one choice for each matching -/
def roundExec (C : ConInfo σ) (c : Cfg) (x : DSt σ) : List Choice → Option (DSt σ)
  | [] => if (nextMatching c x.h x.q).2 = [] then some { x with h := (nextMatching c x.h x.q).1 } else none
  | ch :: chs =>
    if (nextMatching c x.h x.q).2 = [] then none
    else match matching C c { x with h := (nextMatching c x.h x.q).1 } (nextMatching c x.h x.q).2 ch with
      | some y => roundExec C c y chs
      | none => none

/-- `round_delta < min_improvement` -/
def low (c : Cfg) : Option Int → Bool
  | none => false
  | some d => decide (d < c.minImp)

/-- `refineImpl` (lines 65-183): `delta = none` before the first round (`round_delta` is the maximum integer); one list of choices for each round -/
def refine (C : ConInfo σ) (c : Cfg) (x : DSt σ) (delta : Option Int) : List (List Choice) → Option (DSt σ)
  | [] => if low c delta = true ∨ (nextMatching c x.h x.q).2 = [] then some x else none
  | r :: rs =>
    if low c delta = true ∨ (nextMatching c x.h x.q).2 = [] then none
    else match roundExec C c { x with delta := 0 } r with
      | some y =>
        -- lines 160-162
        refine C c { y with total := y.total + y.delta, h := resetRound c y.h y.q } (some y.delta) rs
      | none => none

/-- The state after `initializeImpl` (lines 186-195): `order` is the order of the insertions into the quotient graph, `q0` and `h0` the state left by earlier
calls on other levels (only the improvement counts survive, quotient_graph.cpp:45-50). -/
def start (C : ConInfo σ) (c : Cfg) (s : CSt σ) (q0 : QG) (h0 : Sch) (order : List (Nat × Nat × Nat)) : DSt σ :=
  let q := addAll c.fc.H { q0 with cut := fun _ _ => [], weight := fun _ _ => 0 } order
  ⟨s, q, initSch c h0 q, 0, 0⟩

end DFlow
end Verif
