import Verif.Model.GainCache
/-!
# Interleaving semantics of concurrent node moves on a partitioned hypergraph

Source: `changeNodePart` and `updatePinCountOfHyperedge` of
`mt-kahypar/datastructures/partitioned_hypergraph.h` (590-621, 1234-1253), with the gain cache
variant (644-668) that calls `deltaGainUpdate` after every hyperedge.

Every node is its own process: any number of threads may execute `changeNodePart` at the same time
as long as no two of them move the same node at the same time (the caller contract
`ASSERT(partID(u) == from)`).  A node may be moved again after its previous move has returned.
One action is one atomic operation of the code:

* `add_fetch` on the weight of the target block (the comparison with the limit is local);
* the store to `_part_ids[u]`;
* `fetch_sub` on the weight of the source block (or of the target block, if rejected);
* one lock-protected critical section of one hyperedge;
* reading the block id of a pin in a delta gain update; one `fetch_add` on the gain cache.

Simplification: the interleaving is sequentially consistent.  The critical section is one step
because hyperedges own disjoint words (theorem `C07_write_isolated`) and are protected by a lock.
-/
namespace Verif

/-- remaining work of the loop over the incident hyperedges -/
inductive Micro where
  | edge (e : Nat)
  | cache (op : CacheOp)

/-- program counter of the `changeNodePart` call of one node -/
inductive Proc where
  /-- no call active -/
  | idle
  /-- the weight check succeeded, next: `_part_ids[u] = to` -/
  | accepted (src dst : Nat)
  /-- block id stored, next: `_part_weights[from].fetch_sub` -/
  | placed (src dst : Nat)
  /-- in the loop over the hyperedges -/
  | run (src dst : Nat) (todo : List Micro)
  /-- the weight check failed, next: `_part_weights[to].fetch_sub` -/
  | rejected (dst : Nat)

/-- shared state; `log` collects the updates handed to the delta functions of all calls, `moved` is
a history variable: the node was moved since its penalty term was (re)computed last. -/
structure CSt (σ : Type) where
  part : Assign
  wt : Nat → Int
  con : σ
  cache : Nat → Int
  log : List EdgeUpdate
  proc : Nat → Proc
  moved : Nat → Bool

/-- Scheduler choices: start a move of a node (with a weight limit for the target block), execute
the next atomic step of the call moving node `u`, or recompute the penalty term of a node
(`recomputeInvalidTerms`, only done by the refiners while no move is active). -/
inductive Act where
  | start (u dst : Nat) (lim : Int)
  | tick (u : Nat)
  | recompute (u : Nat)

namespace CSt
variable {σ : Type} (C : ConInfo σ) (H : HG) (k : Nat) (o : Metrics.Obj)

def setProc (s : CSt σ) (u : Nat) (p : Proc) : Nat → Proc := fun v => if v = u then p else s.proc v

def isIdle (s : CSt σ) (u : Nat) : Bool := match s.proc u with | .idle => true | _ => false

/-- no call is active -/
def quiescent (s : CSt σ) : Bool := H.nodes.all (fun u => s.isIdle u)

/-- one atomic step; `none` if the action is not enabled -/
def step (s : CSt σ) : Act → Option (CSt σ)
  | .start u dst lim =>
    if u ∈ H.nodes ∧ dst < k ∧ s.isIdle u then
      match s.part u with
      | some src =>
        if src ≠ dst then
          -- `to_weight_after = _part_weights[to].add_fetch(wu)`
          let wt1 := addWt s.wt dst (H.nw u)
          if wt1 dst ≤ lim then
            some { s with wt := wt1, proc := s.setProc u (.accepted src dst),
                          moved := fun v => if v = u then true else s.moved v }
          else some { s with wt := wt1, proc := s.setProc u (.rejected dst) }
        else none
      | none => none
    else none
  | .tick u =>
    match s.proc u with
    | .idle => none
    | .accepted src dst =>
      some { s with part := s.part.put u dst, proc := s.setProc u (.placed src dst) }
    | .placed src dst =>
      some { s with wt := addWt s.wt src (-H.nw u),
                    proc := s.setProc u (.run src dst ((H.inc u).map .edge)) }
    | .run _ _ [] => some { s with proc := s.setProc u .idle }
    | .run src dst (.edge e :: t) =>
      let r := PHG.updateEdge C H s.con e src dst
      some { s with con := r.2, log := s.log ++ [r.1],
                    proc := s.setProc u (.run src dst
                      ((gainDelta o k (H.pins e) r.1).map .cache ++ t)) }
    | .run src dst (.cache (.addIf v b i a) :: t) =>
      some { s with proc := s.setProc u (.run src dst
                      (if s.part v = some b then .cache (.add i a) :: t else t)) }
    | .run src dst (.cache (.add i a) :: t) =>
      some { s with cache := fun j => if j = i then s.cache j + a else s.cache j,
                    proc := s.setProc u (.run src dst t) }
    | .rejected dst =>
      some { s with wt := addWt s.wt dst (-H.nw u), proc := s.setProc u .idle }
  | .recompute u =>
    if u ∈ H.nodes ∧ s.quiescent H then
      some { s with
        cache := fun j => if j = penIdx k u then
          recomputePenalty o H (C.pinCount s.con) s.part u else s.cache j
        moved := fun v => if v = u then false else s.moved v }
    else none

/-- execute a schedule -/
def exec (s : CSt σ) : List Act → Option (CSt σ)
  | [] => some s
  | a :: as => match step C H k o s a with
    | some s' => exec s' as
    | none => none

end CSt
end Verif
