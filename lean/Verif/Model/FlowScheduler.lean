import Verif.Model.DetLP
/-!
# Model: scheduler of the flow-based refinement

Source: `mt-kahypar/partition/refinement/flows/flow_refinement_scheduler.cpp` (`applyMoves`, `partWeightUpdate`, `applyMoveSequence`,
`revertMoveSequence`, `initializeImpl`) and `quotient_graph.cpp` (`initialize`, `addNewCutHyperedge`).

Any number of searches run at the same time. The construction of the flow problem and the flow computation only read the partition; they are
not modelled, a search can return any sequence of moves. `applyMoves` runs under `_apply_moves_lock`; its `changeNodePart` calls are executed
step by step (`CSt.step`, Model/ConcurrentMoves.lean), because `addNewCutHyperedge` of other threads reads the connectivity sets
without the lock. Objectives cut, km1 and soed; the gain cache is updated by every move (`forceGainCacheUpdates`).
-/
namespace Verif
namespace Flow
open DetLP (Mv)

/-- the part of the context that is used: `mx` is `_max_part_weights` -/
structure Cfg where
  H : HG
  k : Nat
  o : Metrics.Obj
  mx : Nat → Int

/-! ### Block weights -/

/-- the loop that takes back the changes of the blocks below `i` (flow_refinement_scheduler.cpp:583-586) -/
def undo (d : Nat → Int) : Nat → (Nat → Int) → (Nat → Int)
  | 0, pw => pw
  | i + 1, pw => undo d i (addWt pw i (-d i))

/-- the loop of `partWeightUpdate` (flow_refinement_scheduler.cpp:572-590) over the blocks `i, ..., i + n - 1`; `d` are the deltas times `multiplier` -/
def updateFrom (mx d : Nat → Int) : Nat → Nat → (Nat → Int) → Bool × (Nat → Int)
  | 0, _, pw => (true, pw)
  | n + 1, i, pw => if pw i + d i > mx i then (false, undo d i pw) else updateFrom mx d n (i + 1) (addWt pw i (d i))

/-- `partWeightUpdate` (flow_refinement_scheduler.cpp:568-593) -/
def partWeightUpdate (k : Nat) (mx d pw : Nat → Int) : Bool × (Nat → Int) := updateFrom mx d k 0 pw

/-- `part_weight_deltas` (flow_refinement_scheduler.cpp:480-488) -/
def deltas (nw : Nat → Int) (A : List Mv) : Nat → Int :=
  A.foldl (fun d m => if m.src = m.dst then d else addWt (addWt d m.src (-nw m.node)) m.dst (nw m.node)) (fun _ => 0)

/-! ### Quotient graph -/

/-- `addHyperedge` for the pair of blocks `a`, `b` (quotient_graph.cpp:40-43, 79-80); the weight of the pair is the sum over the list -/
def addCut (qg : Nat → Nat → List Nat) (a b e : Nat) : Nat → Nat → List Nat :=
  fun i j => if i = min a b ∧ j = max a b then qg i j ++ [e] else qg i j

variable {σ : Type}

/-- `QuotientGraph::initialize` (quotient_graph.cpp:86-108): the hyperedges in the order `order`, pairs `i < j` of the connectivity set -/
def initQG (C : ConInfo σ) (con : σ) (order : List Nat) : Nat → Nat → List Nat :=
  order.foldl (fun qg e => (C.connSet con e).foldl (fun qg i => (C.connSet con e).foldl (fun qg j => if i < j then addCut qg i j e else qg) qg) qg)
    (fun _ _ => [])

/-! ### Executions -/

/-- an active call of `applyMoves` -/
structure Job where
  /-- the search -/
  thread : Nat
  /-- `sequence.moves` with their `from` blocks -/
  all : List Mv
  /-- moves not yet started (in the current direction) -/
  todo : List Mv
  /-- node of the running `changeNodePart` call -/
  cur : Option Nat
  /-- `revertMoveSequence` is running -/
  back : Bool
  /-- length of the log of hyperedge updates when the call started -/
  base : Nat

/-- `improvement` of the active call (flow_refinement_scheduler.cpp:490-493) -/
def improvement (o : Metrics.Obj) (log : List EdgeUpdate) (base : Nat) : Int := -((log.drop base).map (attrGain o)).sum

/-- `new_cut_hes` (flow_refinement_scheduler.cpp:495-499, 441-447): hyperedges with a new block. An entry is (hyperedge, block, next block to be read).
Simplification: the block is entered together with the hyperedge, not after the call of `changeNodePart`. -/
def newCuts (log : List EdgeUpdate) (base : Nat) : List (Nat × Nat × Nat) :=
  (log.drop base).filterMap (fun u => if u.dstAfter = 1 then some (u.he, u.dst, 0) else none)

/-- global state -/
structure FSt (σ : Type) where
  /-- partition, gain cache and the running `changeNodePart` call -/
  s : CSt σ
  /-- `_part_weights` -/
  pw : Nat → Int
  /-- owner of `_apply_moves_lock` -/
  job : Option Job
  /-- remaining work of `addNewCutHyperedge` of each search -/
  pend : Nat → List (Nat × Nat × Nat)
  /-- `cut_hes` of each pair of blocks -/
  qg : Nat → Nat → List Nat
  /-- sum of the returned improvements (minus `overall_delta`) -/
  total : Int
  /-- `failed_updates_due_to_conflicting_moves_without_rollback` -/
  kept : Nat
  /-- history variable: some sequence was taken back -/
  reverted : Bool

/-- scheduler choices: search `t` returns a sequence and takes the lock; the owner of the lock makes a step; search `t` reads the next
block of a connectivity set -/
inductive FAct where
  | begin (t : Nat) (moves : List (Nat × Nat))
  | run
  | read (t : Nat)

def setPend (p : Nat → List (Nat × Nat × Nat)) (t : Nat) (l : List (Nat × Nat × Nat)) : Nat → List (Nat × Nat × Nat) := fun u => if u = t then l else p u

/-- One step of `applyMoves` (flow_refinement_scheduler.cpp:470-560); `none` if the action is not enabled. A search returns every node at most once and
existing target blocks. `addNewCutHyperedge` (quotient_graph.cpp:67-83) reads the membership of one block at a time, in increasing order. -/
def step (C : ConInfo σ) (c : Cfg) (x : FSt σ) : FAct → Option (FSt σ)
  | .begin t ms =>
    if x.job.isNone ∧ x.pend t = [] ∧ (ms.map Prod.fst).Nodup ∧ (∀ m ∈ ms, m.1 ∈ c.H.nodes ∧ m.2 < c.k) then
      -- lines 481-488
      let A := ms.map (fun m => (⟨m.1, (x.s.part m.1).getD 0, m.2, 0⟩ : Mv))
      -- line 503
      let r := partWeightUpdate c.k c.mx (deltas c.H.nw A) x.pw
      if r.1 then some { x with pw := r.2, job := some ⟨t, A, A, none, false, x.s.log.length⟩ }
      else some { x with pw := r.2 }
    else none
  | .run =>
    match x.job with
    | none => none
    | some j =>
      match j.cur with
      | some u =>
        match CSt.step C c.H c.k c.o x.s (.tick u) with
        | some s' => some { x with s := s', job := some { j with cur := if s'.isIdle u then none else some u } }
        | none => none
      | none =>
        match j.todo with
        | m :: rest =>
          -- lines 437-439, 459-462
          if m.src = m.dst then some { x with job := some { j with todo := rest } }
          else match CSt.step C c.H c.k c.o x.s (.start m.node m.dst Rollback.maxHNW) with
            | some s' => some { x with s := s', job := some { j with todo := rest, cur := some m.node } }
            | none => none
        | [] =>
          let imp := improvement c.o x.s.log j.base
          if j.back then some { x with job := none, total := x.total + imp }
          else if imp < 0 then
            -- lines 509-528
            let r := partWeightUpdate c.k c.mx (fun b => -deltas c.H.nw j.all b) x.pw
            if r.1 then some { x with pw := r.2, job := some { j with todo := j.all.map Mv.swap, back := true }, reverted := true }
            else some { x with pw := r.2, job := none, total := x.total + imp, kept := x.kept + 1 }
          else
            -- lines 529-534, 552-557
            some { x with job := none, total := x.total + imp, pend := setPend x.pend j.thread (newCuts x.s.log j.base) }
  | .read t =>
    match x.pend t with
    | [] => none
    | (e, b, i) :: rest =>
      if i < c.k then
        some { x with pend := setPend x.pend t ((e, b, i + 1) :: rest),
                      qg := if C.contains x.s.con e i = true ∧ i ≠ b then addCut x.qg b i e else x.qg }
      else some { x with pend := setPend x.pend t rest }

/-- an execution -/
def exec (C : ConInfo σ) (c : Cfg) (x : FSt σ) : List FAct → Option (FSt σ)
  | [] => some x
  | a :: as => match step C c x a with
    | some y => exec C c y as
    | none => none

/-- `initializeImpl` (flow_refinement_scheduler.cpp:358-380): weights of the blocks and quotient graph -/
def start (C : ConInfo σ) (s : CSt σ) (order : List Nat) : FSt σ :=
  ⟨s, s.wt, none, fun _ => [], initQG C s.con order, 0, 0, false⟩

/-- `_max_part_weights` (flow_refinement_scheduler.cpp:366-367) -/
def maxWeights (limit wt : Nat → Int) : Nat → Int := fun b => max (wt b) (limit b)

end Flow
end Verif
