import Verif.Model.Extract
/-!
# Model: recursive bipartitioning

Source: `mt-kahypar/partition/recursive_bipartitioning.cpp` (for hypergraphs).
`Multilevel::partition` is an arbitrary function (`RBEnv.ml`).  The two tasks working on the two blocks of a
bipartition run concurrently: the visits of nodes in their final loops (lines 357-366) are interleaved
arbitrarily, and the hyperedge conditions of an extraction are evaluated at arbitrary points of time between
visits of the other task.  One visit (with its call of `changeNodePartNoSync`) is one step;
`C23_extract_race` shows what happens if an evaluation falls into the middle of a move.  Weights are unbounded integers.
-/
namespace Verif
namespace RBip
open SMap (wr)
open Extract

/-- `GainPolicy` (context_enum_classes.h) -/
inductive Policy where
  | cut | km1 | soed | steinerTree | cutForGraphs | steinerTreeForGraphs

/-- `BipartitioningPolicy::useCutNetSplitting` (bipartitioning_policy.h:39-51) -/
def Policy.split : Policy → Bool
  | .cut => false
  | .km1 => true
  | .soed => true
  | .steinerTree => true
  | .cutForGraphs => false
  | .steinerTreeForGraphs => false

/-- `BipartitioningPolicy::nonCutEdgeMultiplier` (bipartitioning_policy.h:53-65) -/
def Policy.mult : Policy → Int
  | .cut => 1
  | .km1 => 1
  | .soed => 2
  | .steinerTree => 1
  | .cutForGraphs => 1
  | .steinerTreeForGraphs => 1

/-- Type of the connectivity information and its construction for `m` hyperedges, `k` blocks and the
maximum hyperedge size (partitioned_hypergraph.h:104-118).  A hypergraph without hyperedges has no pin counts; there
the maximum size 0 is replaced by 1. -/
structure Fam (σ : Type) where
  C : ConInfo σ
  init : Nat → Nat → Nat → σ

def Fam.fresh {σ : Type} (F : Fam σ) (H : SHG) (k : Nat) : PHG σ := PHG.init (F.init H.m k (max H.maxEdgeSize 1))

/-- Results of the bipartitioning and schedules of the call identified by the path in the recursion tree.
* `ml path H fixed v`: block of node `v` computed by `Multilevel::partition` for `H` with the given fixed vertices;
* `norder`, `order`, `eorder`: loops of `initializePartition`;
* `x path t`: schedule of the extraction of task `t`;
* `visits`: order of the node visits of the two tasks;
* `j1`, `j2`, `jp`: number of visits of the other task before an evaluation in the extraction;
* `com`, `stable`: community ids and `stable_construction_of_incident_edges`. -/
structure RBEnv where
  ml : List Bool → SHG → (Nat → Option Nat) → Nat → Nat
  norder : List Bool → SHG → List Nat
  order : List Bool → SHG → Nat → List (List Nat)
  eorder : List Bool → SHG → List Nat
  x : List Bool → Bool → SHG → XSched
  visits : List Bool → SHG → List (Bool × Nat)
  j1 : List Bool → Nat → Nat
  j2 : List Bool → Nat → Nat
  jp : List Bool → Nat
  com : List Bool → Nat → Nat
  stable : Bool

/-- `adaptWeightsOfNonCutEdges` (recursive_bipartitioning.cpp:229-245); the multiplication by `1.0 / multiplier` and
truncation is the integer division -/
def adapt (H : SHG) (mult : Int) (old : Nat → Bool) (revert : Bool) : SHG :=
  if mult ≠ 1 then
    { H with heWeight := fun e => if H.heEnabled e && !old e then
        (if revert then (H.heWeight e).tdiv mult else mult * H.heWeight e) else H.heWeight e }
  else H

/-- `hasFixedVertices` (fixed_vertex_support.h:97-99): the total weight of the fixed vertices is positive -/
def hasFixed (H : SHG) (fx : Nat → Option Nat) : Bool :=
  decide (0 < ((H.nodes.filter (fun v => (fx v).isSome)).map H.hnWeight).sum)

/-- `setupFixedVerticesForBipartitioning` (recursive_bipartitioning.cpp:183-200) -/
def fixBip (H : SHG) (k : Nat) (fx : Nat → Option Nat) : Nat → Option Nat :=
  if hasFixed H fx then
    fun v => match fx v with
      | some b => if b < k / 2 + k % 2 then some 0 else some 1
      | none => none
  else fx

/-- `setupFixedVerticesForRecursion` (recursive_bipartitioning.cpp:203-222) -/
def fixRec (H : SHG) (fx : Nat → Option Nat) (hnMap : Nat → Nat) (k0 k1 : Nat) : Nat → Option Nat :=
  if hasFixed H fx then
    H.nodes.foldl (fun out v => match fx v with
      | some b => if b ≥ k0 ∧ b < k1 then wr out (hnMap v) (some (b - k0)) else out
      | none => out) (fun _ => none)
  else fun _ => none

/-- `std::numeric_limits<HypernodeWeight>::max()` -/
def maxWeight : Int := 2147483647

/-- visit of node `v` by the final loop of a task (recursive_bipartitioning.cpp:357-366): `blk t` is the block
of task `t`, `to t v` the block of `v` in the partition of the extracted hypergraph -/
def visit {σ : Type} (C : ConInfo σ) (H : SHG) (blk : Bool → Nat) (sub : Bool → Nat → Nat) (P : PHG σ) (tv : Bool × Nat) : PHG σ :=
  if P.part tv.2 = some (blk tv.1) then
    let dst := blk tv.1 + sub tv.1 tv.2
    if blk tv.1 ≠ dst then (PHG.changeNodePart C H.toHG P tv.2 (blk tv.1) dst maxWeight).2.2 else P
  else P

/-- extraction (line 343) of block `b` while another task visits nodes: `st j` is the partition after `j` visits -/
def extractDuring {σ : Type} (C : ConInfo σ) (H : SHG) (st : Nat → PHG σ) (com : Nat → Nat) (b : Nat) (cut : Option (Nat → Bool))
    (split stable : Bool) (s : XSched) (j1 j2 : Nat → Nat) (jp : Nat) : Block :=
  extractWith H (st jp).part com b cut stable s
    (fun e => select C (st (j1 e)).con b split e) (fun e => select C (st (j2 e)).con b split e)

/-- `recursively_bipartition_block` after the extraction (recursive_bipartitioning.cpp:346-355): block of every node in
the partition of the extracted hypergraph; `rec` is the recursive call, `k0`, `k1` the range of final blocks -/
def subTask {σ : Type} (rec : SHG → Nat → (Nat → Bool) → (Nat → Option Nat) → Option (PHG σ × Int)) (H : SHG) (fx : Nat → Option Nat)
    (k0 k1 : Nat) (B : Block) : Option ((Nat → Nat) × Int) :=
  match B.hg with
  | none => none
  | some H' =>
    let fx' := fixRec H fx B.hnMap k0 k1
    if H'.n > 0 then
      match rec H' (k1 - k0) B.cut fx' with
      | none => none
      | some r => some (fun v => (r.1.part (B.hnMap v)).getD 0, r.2)
    else some (fun _ => 0, 0)

/-- `block_0`, `block_1` (lines 283-284) -/
def blkOf (k : Nat) (t : Bool) : Nat := if t then k / 2 + k % 2 else 0
/-- first final block of a task: argument `k0` of the calls in lines 316, 317, 324 -/
def loOf (k : Nat) (t : Bool) : Nat := if t then k / 2 + k % 2 else 0
/-- argument `k1` of the calls in lines 316, 317, 324 -/
def hiOf (k : Nat) (t : Bool) : Nat := if t then k / 2 + k % 2 + k / 2 else k / 2 + k % 2

/-- the partition with the bipartition `β` applied (lines 282-295) -/
def applied {σ : Type} (F : Fam σ) (env : RBEnv) (path : List Bool) (H : SHG) (k : Nat) (β : Nat → Nat) : PHG σ :=
  PHG.build F.C H.toHG k (F.fresh H k) (fun v => if β v = 0 then blkOf k false else blkOf k true)
    (env.norder path H) (env.order path H) (env.eorder path H)

/-- update of `already_cut` (lines 297-302) and the argument of `extract` (line 343) -/
def cutFlags {σ : Type} (C : ConInfo σ) (pol : Policy) (H : SHG) (P : PHG σ) (old : Nat → Bool) : Option (Nat → Bool) :=
  if pol.mult ≠ 1 ∧ H.m ≠ 0 then some (fun e => old e || (H.heEnabled e && decide (C.connectivity P.con e > 1))) else none

/-- `recursively_bipartition_block` for task `t` up to its final loop; `st j` is the partition after `j` visits
of the other task -/
def runTask {σ : Type} (F : Fam σ) (env : RBEnv) (pol : Policy)
    (rec : List Bool → SHG → Nat → (Nat → Bool) → (Nat → Option Nat) → Option (PHG σ × Int))
    (path : List Bool) (H : SHG) (k : Nat) (fx : Nat → Option Nat) (cut : Option (Nat → Bool)) (t : Bool) (st : Nat → PHG σ) :
    Option ((Nat → Nat) × Int) :=
  subTask (rec (path ++ [t])) H fx (loOf k t) (hiOf k t)
    (extractDuring F.C H st (env.com path) (blkOf k t) cut pol.split env.stable (env.x path t H) (env.j1 path) (env.j2 path) (env.jp path))

/-- the two tasks (lines 304-325): `P` is the partition before, the result is the final one and the sum of the costs -/
def runTasks {σ : Type} (F : Fam σ) (env : RBEnv) (pol : Policy)
    (rec : List Bool → SHG → Nat → (Nat → Bool) → (Nat → Option Nat) → Option (PHG σ × Int))
    (path : List Bool) (H : SHG) (k : Nat) (fx : Nat → Option Nat) (cut : Option (Nat → Bool)) (P : PHG σ) : Option (PHG σ × Int) :=
  let rbk0 := k / 2 + k % 2
  let rbk1 := k / 2
  let visits := env.visits path H
  if 2 ≤ rbk0 ∧ 2 ≤ rbk1 then
    -- the task that starts its visits first extracts its block before any visit
    let t := (visits.head?.map (·.1)).getD false
    (runTask F env pol rec path H k fx cut t (fun _ => P)).bind fun s0 =>
      let pre := visits.takeWhile (fun x => x.1 == t)
      (runTask F env pol rec path H k fx cut (!t) (fun j => (pre.take j).foldl (visit F.C H (blkOf k) (fun _ => s0.1)) P)).bind fun s1 =>
        some (visits.foldl (visit F.C H (blkOf k) (fun t' => if t' = t then s0.1 else s1.1)) P, s0.2 + s1.2)
  else if 2 ≤ rbk0 then
    (runTask F env pol rec path H k fx cut false (fun _ => P)).bind fun s0 =>
      some ((visits.filter (fun x => x.1 == false)).foldl (visit F.C H (blkOf k) (fun _ => s0.1)) P, s0.2)
  else some (P, 0)

/-- one call of `recursive_bipartitioning` (recursive_bipartitioning.cpp:256-328). `H` is the hypergraph, `k` the number of
blocks (`k1 - k0`), `old` the flags `already_cut`, `fx` the fixed vertex blocks.  Result: the partition and (ghost) the
sum of the cuts of all bipartitions, as seen by `Multilevel::partition`; `none`: an exception was thrown. -/
def bipStep {σ : Type} (F : Fam σ) (env : RBEnv) (pol : Policy)
    (rec : List Bool → SHG → Nat → (Nat → Bool) → (Nat → Option Nat) → Option (PHG σ × Int))
    (path : List Bool) (H0 : SHG) (k : Nat) (old : Nat → Bool) (fx : Nat → Option Nat) : Option (PHG σ × Int) :=
  if H0.n > 0 then
    -- lines 267-280
    let Ha := adapt H0 pol.mult old false
    let β := env.ml path Ha (fixBip H0 k fx)
    let H := adapt Ha pol.mult old true
    let P := applied F env path H k β
    (runTasks F env pol rec path H k fx (cutFlags F.C pol H P old) P).map
      (fun r => (r.1, Ha.toHG.cut (fun v => some (β v)) + r.2))
  else some (F.fresh H0 k, 0)

/-- the recursion; `none` also if `fuel` is exhausted -/
def recBip {σ : Type} (F : Fam σ) (env : RBEnv) (pol : Policy) :
    Nat → List Bool → SHG → Nat → (Nat → Bool) → (Nat → Option Nat) → Option (PHG σ × Int)
  | 0, _, _, _, _, _ => none
  | fuel + 1, path, H, k, old, fx => bipStep F env pol (recBip F env pol fuel) path H k old fx

/-- `RecursiveBipartitioning::partition` (recursive_bipartitioning.cpp:387-421) -/
def partition {σ : Type} (F : Fam σ) (env : RBEnv) (pol : Policy) (H : SHG) (k : Nat) (fx : Nat → Option Nat) : Option (PHG σ × Int) :=
  let pol := match pol with
    | .steinerTree => .km1
    | .steinerTreeForGraphs => .cutForGraphs
    | p => p
  recBip F env pol k [] H k (fun _ => false) fx

end RBip
end Verif
