import Mathlib.Order.Defs.LinearOrder
import Mathlib.Data.List.Sort
/-!
# Model: the pool of initial partitions

Source: `mt-kahypar/partition/initial_partitioning/initial_partitioning_data_container.h`. The flat partitioning algorithms and the refinement
are not modelled: a run is given by the partition and the result it commits.
-/
namespace Verif
namespace Pool

/-- `PartitioningResult` (initial_partitioning_data_container.h:59-97) without the name of the algorithm. Imbalances (`double`, never NaN) are
the elements of a linear order. -/
structure Res (ι : Type) where
  obj : Int
  imb : ι
  rtag : Nat
  dtag : Nat

variable {ι : Type} [LinearOrder ι] {α : Type}

/-- `r.is_other_better(o, eps)` (initial_partitioning_data_container.h:71-83) -/
def Res.better (eps : ι) (r o : Res ι) : Bool :=
  let equalMetric := decide (o.obj = r.obj)
  let improvedMetric := decide (o.obj < r.obj)
  let improvedImb := decide (o.imb < r.imb)
  let feas := decide (r.imb ≤ eps)
  let oFeas := decide (o.imb ≤ eps)
  (improvedMetric && (oFeas || improvedImb)) ||
  (equalMetric && improvedImb) ||
  (oFeas && !feas) ||
  (improvedImb && !oFeas && !feas) ||
  (equalMetric && decide (r.imb = o.imb) && (decide (o.rtag < r.rtag) || (decide (o.rtag = r.rtag) && decide (o.dtag < r.dtag))))

/-- a result and its partition -/
abbrev Entry (ι α : Type) := Res ι × α

/-! ### Nondeterministic mode -/

/-- `commit`, thread-local part (initial_partitioning_data_container.h:519-522): `x` are `_result` and `_partition` of the thread -/
def commitLocal (eps : ι) (x e : Entry ι α) : Entry ι α := if x.1.better eps e.1 then e else x

/-- `performRefinementOnBestPartition` (initial_partitioning_data_container.h:288-302): `refined` is what the refinement returns -/
def refineBest (eps : ι) (refined : Entry ι α) (x : Entry ι α) : Entry ι α := if x.1.better eps refined.1 then refined else x

/-- the loop over all threads (initial_partitioning_data_container.h:621-626) -/
def bestOf (eps : ι) (x : Entry ι α) (l : List (Entry ι α)) : Entry ι α := l.foldl (fun b y => if b.1.better eps y.1 then y else b) x

/-- nondeterministic mode: every thread commits its results in the order of its list; `refine` is the refinement of the best partition
of each thread. The first thread is `c`. -/
def applyLocal (eps : ι) (dflt : Entry ι α) (refine : Entry ι α → Entry ι α) (c : List (Entry ι α)) (cs : List (List (Entry ι α))) : Entry ι α :=
  let fin := fun (c : List (Entry ι α)) => let x := c.foldl (commitLocal eps) dflt; refineBest eps (refine x) x
  bestOf eps (fin c) (cs.map fin)

/-! ### Deterministic mode -/

/-- program counter of `commit` (initial_partitioning_data_container.h:500-518) -/
inductive PC where
  /-- before the first comparison (line 505) -/
  | start
  /-- waits for `_pop_lock` (line 506) -/
  | want
  /-- holds the lock, before the second comparison (line 508) -/
  | locked
  /-- `_best_partitions[0]` is overwritten (line 513), the heap is being repaired -/
  | written
  | done
  deriving DecidableEq

/-- shared population `_best_partitions` and the state of all runs -/
structure St (ι α : Type) where
  pop : List (Entry ι α)
  holder : Option Nat
  pc : Nat → PC

def setPc (f : Nat → PC) (t : Nat) (p : PC) : Nat → PC := fun u => if u = t then p else f u

/-- One step of the run `t`, which commits `e t`. `std::pop_heap` and `std::push_heap` permute the population; while they run, any entry can
be at the front. Afterwards the worst one is at the front. (Formally the precondition of `pop_heap` is violated because the front was
replaced; the implementations do not use it.) Reading the front is a single step: torn reads of the unprotected access in line 504 are not modelled. -/
inductive Step (eps : ι) (e : Nat → Entry ι α) : St ι α → St ι α → Prop
  | pass (s : St ι α) (t : Nat) (x : Entry ι α) (l : List (Entry ι α)) (hp : s.pc t = .start) (h : s.pop = x :: l)
      (hb : x.1.better eps (e t).1 = true) : Step eps e s { s with pc := setPc s.pc t .want }
  | reject (s : St ι α) (t : Nat) (x : Entry ι α) (l : List (Entry ι α)) (hp : s.pc t = .start) (h : s.pop = x :: l)
      (hb : x.1.better eps (e t).1 = false) : Step eps e s { s with pc := setPc s.pc t .done }
  | acquire (s : St ι α) (t : Nat) (hp : s.pc t = .want) (hl : s.holder = none) :
      Step eps e s { s with holder := some t, pc := setPc s.pc t .locked }
  | giveUp (s : St ι α) (t : Nat) (x : Entry ι α) (l : List (Entry ι α)) (hp : s.pc t = .locked) (h : s.pop = x :: l)
      (hb : x.1.better eps (e t).1 = false) : Step eps e s { s with holder := none, pc := setPc s.pc t .done }
  | write (s : St ι α) (t : Nat) (x : Entry ι α) (l : List (Entry ι α)) (hp : s.pc t = .locked) (h : s.pop = x :: l)
      (hb : x.1.better eps (e t).1 = true) : Step eps e s { s with pop := e t :: l, pc := setPc s.pc t .written }
  | shuffle (s : St ι α) (t : Nat) (l : List (Entry ι α)) (hp : s.pc t = .written) (h : l.Perm s.pop) : Step eps e s { s with pop := l }
  | finish (s : St ι α) (t : Nat) (x : Entry ι α) (l : List (Entry ι α)) (hp : s.pc t = .written) (h : (x :: l).Perm s.pop)
      (hw : ∀ y ∈ x :: l, y.1.better eps x.1 = false) :
      Step eps e s { pop := x :: l, holder := none, pc := setPc s.pc t .done }

/-- executions -/
inductive Steps (eps : ι) (e : Nat → Entry ι α) : St ι α → St ι α → Prop
  | refl (s : St ι α) : Steps eps e s s
  | tail (s t u : St ι α) (h : Steps eps e s t) (h' : Step eps e t u) : Steps eps e s u

/-- the constructor (initial_partitioning_data_container.h:383-388): a population of `p` default entries -/
def initial (p : Nat) (dflt : Entry ι α) : St ι α := ⟨List.replicate p dflt, none, fun _ => .start⟩

/-- the refinement of the population (initial_partitioning_data_container.h:560-584): entry `i` is refined by `refine i` -/
def refineAll (eps : ι) (refine : Nat → Entry ι α → Entry ι α) (l : List (Entry ι α)) : List (Entry ι α) :=
  l.mapIdx (fun i x => refineBest eps (refine i x) x)

/-- `apply` in deterministic mode (initial_partitioning_data_container.h:548-598): `sorted` is the result of the sort in line 556; the refinement
is optional. Returns the entry `best_index`. -/
def applyPool (eps : ι) (refine : Option (Nat → Entry ι α → Entry ι α)) (sorted : List (Entry ι α)) : Option (Entry ι α) :=
  match (match refine with
    | some f => refineAll eps f sorted
    | none => sorted) with
  | [] => none
  | x :: l => some (bestOf eps x l)

end Pool
end Verif
