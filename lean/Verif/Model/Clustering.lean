import Mathlib.Logic.Function.Basic
import Mathlib.Data.List.Count
/-!
# Model: concurrent clustering of the multilevel coarsener

Source: `mt-kahypar/partition/coarsening/multilevel_coarsener.h`
(`coarseningPassImpl` 150-165, `performClustering` 245-290, `matchVertices` 359-460, `joinCluster` 462-488).

One process per node `u` (the `parallel_for` of `performClustering` visits each node once).  Each load,
store, compare-exchange and fetch-add on `_matching_state`, `_matching_partner`, `cluster_ids` and
`_cluster_weight` is one step; steps of different processes interleave arbitrarily (sequentially
consistent memory).  The rating function is not modelled: a process may be started with *any* target
`v ≠ u`, or not at all, so every rating policy, contraction limit and thread count is covered.
Weights are integers (no 32-bit overflow).  The result of `fixed_vertices.contract(rep, u)` is an
arbitrary Boolean chosen by the environment (always true without fixed vertices).
-/
namespace Verif

/-- `MatchingState` (multilevel_coarsener.h:71-75) -/
inductive MSt
  | unmatched | inProgress | matched
  deriving DecidableEq, Repr

/-- the call site of `joinCluster`: with the representative of a matched node (403 and 449), with a node
grabbed by a compare-exchange (409), or to resolve a cyclic dependency (436) -/
inductive JoinKind
  | rep | grab | cyc
  deriving DecidableEq, Repr

/-- program counter of the process of one node -/
inductive CPc
  | idle                                  -- not started
  | weight                                -- about to read `_cluster_weight[v]` (388)
  | cas                                   -- about to compare-exchange `_matching_state[u]` (391)
  | store                                 -- about to store `_matching_partner[u] = v` (392)
  | loadV                                 -- about to load `_matching_state[v]` (397)
  | casV                                  -- about to compare-exchange `_matching_state[v]` (406)
  | walk (cur small : Nat)                -- conflict resolution: about to load `_matching_partner[cur]` (423)
  | check2 (cur small : Nat)              -- about to load `_matching_partner[cur]` again (434)
  | loop                                  -- about to load `_matching_state[v]` in the loop condition (440)
  | self                                  -- about to load `_matching_state[u]` (446)
  | read                                  -- about to read `cluster_ids[v]` (401, 448)
  | jload (k : JoinKind) (rep : Nat)      -- `joinCluster`: about to read `_cluster_weight[rep]` (472)
  | jwrite (k : JoinKind) (rep : Nat)     -- about to write `cluster_ids[u] = rep` (481)
  | jadd (k : JoinKind) (rep : Nat)       -- about to add to `_cluster_weight[rep]` (482-483)
  | jstore (k : JoinKind)                 -- about to store `_matching_state[v] = matched` (411, 438)
  | fin1                                  -- about to store `_matching_partner[u] = u` (455)
  | fin2                                  -- about to store `_matching_state[u] = matched` (456)
  | done                                  -- returned after owning `u`
  | skip                                  -- returned without owning `u`
  deriving DecidableEq, Repr

structure ClSt where
  /-- `_matching_state` -/
  st : Nat → MSt
  /-- `_matching_partner` -/
  partner : Nat → Nat
  /-- `cluster_ids` -/
  cid : Nat → Nat
  /-- `_cluster_weight` -/
  cw : Nat → Int
  /-- sum of the thread-local `contracted_nodes` -/
  contracted : Nat
  pc : Nat → CPc
  /-- the argument `v` of the call `matchVertices(u, v)` -/
  tgt : Nat → Nat
  /-- auxiliary, never read by the program: how often `u` executed the body of `joinCluster` -/
  cnt : Nat → Nat
  /-- auxiliary, never read by the program: `u` has resolved a cyclic dependency -/
  res : Nat → Bool
  /-- auxiliary, never read by the program: some process found its target matched in line 398 although
  its own node had been matched by another process in the meantime -/
  late : Bool

namespace ClSt

/-- initial state of a coarsening pass (multilevel_coarsener.h:154-165) -/
def init (nw : Nat → Int) : ClSt :=
  { st := fun _ => .unmatched, partner := fun x => x, cid := fun x => x, cw := nw, contracted := 0
    pc := fun _ => .idle, tgt := fun x => x, cnt := fun _ => 0, res := fun _ => false, late := false }

/-- write the program counter of `u` -/
def goto (s : ClSt) (u : Nat) (p : CPc) : ClSt := { s with pc := Function.update s.pc u p }

/-- continuation after `joinCluster`: the two sites that own or resolve store `_matching_state[v]` -/
def afterJoin : JoinKind → CPc
  | .rep => .fin1
  | .grab => .jstore .grab
  | .cyc => .jstore .cyc

/-- One step of the process of `u` with `v = tgt u` (`matchVertices` 386-459, `joinCluster` 462-488).
`ok` is the answer of `fixed_vertices.contract` (477). -/
def run (lim : Int) (nw : Nat → Int) (s : ClSt) (u : Nat) (ok : Bool) : Option ClSt :=
  let v := s.tgt u
  match s.pc u with
  | .idle | .done | .skip => none
  | .weight => some (s.goto u (if nw u + s.cw v ≤ lim then .cas else .skip))
  | .cas =>
    if s.st u = .unmatched then
      some { s with st := Function.update s.st u .inProgress, pc := Function.update s.pc u .store }
    else some (s.goto u .skip)
  | .store => some { s with partner := Function.update s.partner u v, pc := Function.update s.pc u .loadV }
  | .loadV =>
    match s.st v with
    | .matched => some { s with pc := Function.update s.pc u .read, late := s.late || decide (s.st u = .matched) }
    | .unmatched => some (s.goto u .casV)
    | .inProgress => some (s.goto u (.walk u u))
  | .casV =>
    if s.st v = .unmatched then
      some { s with st := Function.update s.st v .inProgress, pc := Function.update s.pc u (.jload .grab v) }
    else some (s.goto u (.walk u u))
  | .walk cur small =>
    let next := s.partner cur
    if next ≠ u ∧ next ≠ cur then some (s.goto u (.walk next (min small next)))
    else some (s.goto u (.check2 cur small))
  | .check2 cur small =>
    if s.partner cur = u ∧ u = small then some (s.goto u (.jload .cyc v))
    else some (s.goto u .loop)
  | .loop => some (s.goto u (if s.st v = .inProgress then .walk u u else .self))
  | .self => some (s.goto u (if s.st u = .inProgress then .read else .fin1))
  | .read => some (s.goto u (.jload .rep (s.cid v)))
  | .jload k rep =>
    some (s.goto u (if nw u + s.cw rep ≤ lim ∧ ok = true then .jwrite k rep else afterJoin k))
  | .jwrite k rep => some { s with cid := Function.update s.cid u rep, pc := Function.update s.pc u (.jadd k rep) }
  | .jadd k rep =>
    some { s with cw := Function.update s.cw rep (s.cw rep + nw u), contracted := s.contracted + 1
                  cnt := Function.update s.cnt u (s.cnt u + 1), pc := Function.update s.pc u (afterJoin k) }
  | .jstore .cyc =>
    some { s with st := Function.update s.st v .matched, pc := Function.update s.pc u .loop
                  res := Function.update s.res u true }
  | .jstore _ =>
    some { s with st := Function.update s.st v .matched, pc := Function.update s.pc u .fin1 }
  | .fin1 => some { s with partner := Function.update s.partner u u, pc := Function.update s.pc u .fin2 }
  | .fin2 => some { s with st := Function.update s.st u .matched, pc := Function.update s.pc u .done }

/-- a thread starts `matchVertices(u, v)` (performClustering 253-262); `v` is a node other than `u` -/
def begin (s : ClSt) (u v : Nat) : ClSt :=
  { s with tgt := Function.update s.tgt u v, pc := Function.update s.pc u .weight }

/-- `u` is inside a call of `matchVertices` -/
def active : CPc → Bool
  | .idle | .done | .skip => false
  | _ => true

/-- number of threads currently inside `matchVertices` -/
def numActive (s : ClSt) (nodes : List Nat) : Nat := nodes.countP fun x => active (s.pc x)

/-- the states reachable with at most `T` threads -/
inductive Reach (lim : Int) (nw : Nat → Int) (nodes : List Nat) (T : Nat) : ClSt → Prop
  | init : Reach lim nw nodes T (init nw)
  | start {s : ClSt} {u v : Nat} : Reach lim nw nodes T s → u ∈ nodes → v ∈ nodes → v ≠ u → s.pc u = .idle →
      s.numActive nodes < T → Reach lim nw nodes T (s.begin u v)
  | run {s s' : ClSt} {u : Nat} {ok : Bool} : Reach lim nw nodes T s → s.run lim nw u ok = some s' →
      Reach lim nw nodes T s'

/-- what happens at one moment of an execution: nothing, a thread calls `matchVertices(u, v)`, or the
process of `u` makes one step -/
inductive Act
  | stay
  | start (u v : Nat)
  | run (u : Nat) (ok : Bool)

/-- the effect of an action with at most `T` threads -/
def Does (lim : Int) (nw : Nat → Int) (nodes : List Nat) (T : Nat) (s : ClSt) : Act → ClSt → Prop
  | .stay, s' => s' = s
  | .start u v, s' => u ∈ nodes ∧ v ∈ nodes ∧ v ≠ u ∧ s.pc u = .idle ∧ s.numActive nodes < T ∧ s' = s.begin u v
  | .run u ok, s' => s.run lim nw u ok = some s'

/-- an infinite execution of a coarsening pass -/
structure Exec (lim : Int) (nw : Nat → Int) (nodes : List Nat) (T : Nat) where
  σ : Nat → ClSt
  act : Nat → Act
  first : σ 0 = init nw
  next : ∀ i, Does lim nw nodes T (σ i) (act i) (σ (i + 1))

/-- every thread that is inside `matchVertices` is scheduled again -/
def Exec.Fair {lim : Int} {nw : Nat → Int} {nodes : List Nat} {T : Nat} (e : Exec lim nw nodes T) : Prop :=
  ∀ i x, active ((e.σ i).pc x) = true → ∃ j, i ≤ j ∧ ∃ ok, e.act j = .run x ok

end ClSt
end Verif
