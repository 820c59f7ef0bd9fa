import Verif.Model.DetFlow
/-!
# Model of the sequential 2-way FM refiner of initial partitioning

* `partition/refinement/fm/sequential_twoway_fm_refiner.{h,cpp}`
* `partition/initial_partitioning/initial_partitioning_data_container.h:311-316` (rounds)

The queries `partID`, `partWeight`, `pinCountInPart`, `connectivity` of the partitioned hypergraph are the functions of the specification (C01-C04 show that the data
structures return these values; the refiner is sequential). The priority queue (`kahypar::ds::KWayPriorityQueue`, external library) is modelled by its contract:
one queue per block, a flag for each block; a block without entries is not enabled; `deleteMax` returns an entry with the largest key of all enabled blocks;
`empty` is true if no block is enabled. The stopping rule (floating point statistics) is arbitrary. The imbalance is an arbitrary function of the two block
weights with values in a linear order. For graphs (another partition type) the refiner is not modelled.
-/
namespace Verif
namespace TwoWay
open DFlow (set)

/-- `VertexState` (sequential_twoway_fm_refiner.h:71-75) -/
inductive VS where
  | inactive | active | moved
  deriving DecidableEq

/-- `HEState` or the block of a loose hyperedge (sequential_twoway_fm_refiner.h:61-64) -/
inductive HS where
  | free | loose (b : Nat) | locked
  deriving DecidableEq

/-- hypergraph, fixed nodes, `max_part_weights`, `metrics::imbalance` as function of the two block weights -/
structure Cfg (ι : Type) where
  H : HG
  fixed : Nat → Bool
  mx : Nat → Int
  imb : Int → Int → ι

/-- Partition, `_vertex_state`, `_he_state`, `_num_incident_cut_hes`, `_pq` (block, node) and its enabled blocks, `_hns_to_activate`, `_hns_to_remove_from_pq`. -/
structure St where
  Φ : Assign
  vs : Nat → VS
  hs : Nat → HS
  nc : Nat → Nat
  pq : Nat → Nat → Option Int
  en : Nat → Bool
  act : List Nat
  rem : List Nat

variable {ι : Type} (c : Cfg ι)

/-- `partWeight` -/
def wt (s : St) (b : Nat) : Int := c.H.blockWeight s.Φ b

/-- some entry in the queue of block `p` -/
def nonempty (s : St) (p : Nat) : Bool := c.H.nodes.any (fun v => (s.pq p v).isSome)

/-- `insert` -/
def pqInsert (s : St) (p v : Nat) (key : Int) : St := { s with pq := set s.pq p (set (s.pq p) v (some key)) }

/-- `enablePart` -/
def pqEnable (s : St) (p : Nat) : St := if nonempty c s p then { s with en := set s.en p true } else s

/-- `disablePart` -/
def pqDisable (s : St) (p : Nat) : St := { s with en := set s.en p false }

/-- `remove`, and the removal in `deleteMax` -/
def pqRemove (s : St) (p v : Nat) : St :=
  let s' := { s with pq := set s.pq p (set (s.pq p) v none) }
  if nonempty c s' p then s' else { s' with en := set s'.en p false }

/-- `updateKeyBy` -/
def pqUpdate (s : St) (p v : Nat) (d : Int) : St := { s with pq := set s.pq p (set (s.pq p) v ((s.pq p v).map (· + d))) }

/-- the contribution of one hyperedge in `computeGain` (sequential_twoway_fm_refiner.cpp:279-288) -/
def contrib (H : HG) (Φ : Assign) (src dst e : Nat) : Int :=
  if (H.pins e).length > 1 then (if H.pinsIn Φ e dst = 0 then - H.ew e else 0) + (if H.pinsIn Φ e src = 1 then H.ew e else 0) else 0

/-- `computeGain` (sequential_twoway_fm_refiner.cpp:274-290) -/
def computeGain (H : HG) (Φ : Assign) (v src dst : Nat) : Int := ((H.inc v).map (contrib H Φ src dst)).sum

/-- `activate` (sequential_twoway_fm_refiner.cpp:157-171) -/
def activate (s : St) (v : Nat) : St :=
  if 0 < s.nc v then
    match s.Φ v with
    | none => s
    | some src =>
      let s := { s with vs := set s.vs v .active }
      let s := pqInsert s (1 - src) v (computeGain c.H s.Φ v src (1 - src))
      if wt c s (1 - src) < c.mx (1 - src) then pqEnable c s (1 - src) else s
  else s

/-- The initialisation in `refine` (sequential_twoway_fm_refiner.cpp:39-57); `order` are the shuffled free nodes; `BorderVertexTracker::initialize`
(sequential_twoway_fm_refiner.h:93-103) -/
def initSt (s : St) (order : List Nat) : St :=
  let nc := fun v => if v ∈ c.H.nodes then (c.H.inc v).countP (fun e => decide (c.H.lam s.Φ e > 1)) else 0
  let vs := fun v => if v ∈ c.H.nodes ∧ c.fixed v = true then VS.moved else s.vs v
  let s := { s with nc := nc, vs := vs, pq := fun _ _ => none, en := fun _ => false, act := [], rem := [] }
  let s := order.foldl (fun s v => activate c { s with vs := set s.vs v .inactive } v) s
  { s with hs := fun e => if e ∈ c.H.edges then HS.free else s.hs e }

/-- `becameCutHyperedge` (sequential_twoway_fm_refiner.h:110-123), one pin -/
def cutPin (s : St) (v : Nat) : St :=
  let s := { s with nc := set s.nc v (s.nc v + 1) }
  if s.nc v = 1 ∧ s.vs v = .inactive then { s with act := s.act ++ [v] } else s

/-- `becameNonCutHyperedge` (sequential_twoway_fm_refiner.h:125-141), one pin -/
def noncutPin (s : St) (v : Nat) : St :=
  let s := { s with nc := set s.nc v (s.nc v - 1) }
  if s.nc v = 0 ∧ s.vs v = .active then { s with rem := s.rem ++ [v] } else s

/-- `border_vertex_update` (sequential_twoway_fm_refiner.cpp:59-67) for hyperedge `e`; the pin counts are those after the move -/
def borderUpdate (src dst : Nat) (s : St) (e : Nat) : St :=
  if (c.H.pins e).length > 1 then
    if c.H.pinsIn s.Φ e src = 0 then (c.H.pins e).foldl noncutPin s
    else if c.H.pinsIn s.Φ e dst = 1 then (c.H.pins e).foldl cutPin s else s
  else s

/-- `updatePin` (sequential_twoway_fm_refiner.cpp:255-261) for pins in state ACTIVE -/
def updatePin (s : St) (v : Nat) (d : Int) : St :=
  if s.vs v = .active then
    match s.Φ v with
    | none => s
    | some b => pqUpdate s (1 - b) v d
  else s

/-- `deltaGainUpdate` (sequential_twoway_fm_refiner.cpp:202-252) -/
def deltaGainUpdate (s : St) (e src dst : Nat) : St :=
  let f := c.H.pinsIn s.Φ e src
  let t := c.H.pinsIn s.Φ e dst
  let w := c.H.ew e
  if t = 1 ∨ f = 0 ∨ f = 1 ∨ t = 2 then
    if (c.H.pins e).length = 2 then (c.H.pins e).foldl (fun s v => updatePin s v ((if s.Φ v = some src then 2 else -2) * w)) s
    else if t = 1 then (c.H.pins e).foldl (fun s v => updatePin s v w) s
    else if f = 0 then (c.H.pins e).foldl (fun s v => updatePin s v (- w)) s
    else (c.H.pins e).foldl (fun s v =>
      if s.Φ v = some src then (if f = 1 then updatePin s v w else s) else if t = 2 then updatePin s v (- w) else s) s
  else s

/-- the loop body of `updateNeighbors` (sequential_twoway_fm_refiner.cpp:183-198) -/
def updateEdge (src dst : Nat) (s : St) (e : Nat) : St :=
  if (c.H.pins e).length > 1 ∧ s.hs e ≠ .locked then
    let s := deltaGainUpdate c s e src dst
    if s.hs e = .free then { s with hs := set s.hs e (.loose dst) }
    else if s.hs e = .loose src then { s with hs := set s.hs e .locked } else s
  else s

/-- `updatePQState` (sequential_twoway_fm_refiner.cpp:263-272) -/
def updatePQState (s : St) (src dst : Nat) : St :=
  let s := if wt c s dst ≥ c.mx dst then pqDisable s dst else s
  if wt c s src < c.mx src then pqEnable c s src else s

/-- `doForAllVerticesThatBecameInternalVertices` (sequential_twoway_fm_refiner.h:153-163, .cpp:101-110) -/
def removeInternal (s : St) (v : Nat) : St :=
  if s.nc v = 0 then
    match s.Φ v with
    | none => s
    | some b => { pqRemove c s (1 - b) v with vs := set s.vs v .inactive }
  else s

/-- State of the loop: the current state, `performed_moves`, `current_cut`, `current_imbalance`, `best_metrics`, `min_cut_idx`. -/
structure Loop (ι : Type) where
  s : St
  moves : List Nat
  cut : Int
  im : ι
  bestQ : Int
  bestI : ι
  idx : Nat

/-- comparison with an entry of the queue, if there is one -/
def keyLe (key : Int) (o : Option Int) : Bool :=
  match o with
  | some k => decide (k ≤ key)
  | none => true

/-- a possible result of `deleteMax` -/
def isMax (s : St) (v p : Nat) (key : Int) : Bool :=
  decide (p < 2) && s.en p && decide (v ∈ c.H.nodes) && decide (s.pq p v = some key) &&
  [0, 1].all (fun q => !s.en q || c.H.nodes.all (fun u => keyLe key (s.pq q u)))

/-- an accepted move: `changeNodePart` with the border updates, the delta gain updates, the update of the queue (sequential_twoway_fm_refiner.cpp:95-121) -/
def applyMove (s : St) (v src dst : Nat) : St :=
  let s := (c.H.inc v).foldl (borderUpdate c src dst) { s with Φ := s.Φ.put v dst }
  let s := (c.H.inc v).foldl (updateEdge c src dst) s
  let s := updatePQState c s src dst
  let s := s.rem.foldl (removeInternal c) s
  let s := { s with rem := [] }
  let s := s.act.foldl (activate c) s
  { s with act := [] }

variable [LinearOrder ι]

/-- One iteration (sequential_twoway_fm_refiner.cpp:74-150) for the result `(v, p, key)` of `deleteMax`; `none` if it is not possible. -/
def step (l : Loop ι) (x : Nat × Nat × Int) : Option (Loop ι) :=
  let v := x.1
  let dst := x.2.1
  let gain := x.2.2
  if isMax c l.s v dst gain then
    match l.s.Φ v with
    | none => none
    | some src =>
      let s := pqRemove c l.s dst v
      let s := { s with vs := set s.vs v .moved }
      -- `changeNodePart` (partitioned_hypergraph.h:438-475)
      if wt c s dst + c.H.nw v ≤ c.mx dst then
        let s := applyMove c s v src dst
        let cut := l.cut - gain
        let im := c.imb (wt c s 0) (wt c s 1)
        let moves := l.moves ++ [v]
        if 0 < wt c s src ∧ ((cut < l.bestQ ∧ wt c s 0 ≤ c.mx 0 ∧ wt c s 1 ≤ c.mx 1) ∨ (im < l.bestI ∧ cut ≤ l.bestQ)) then
          some ⟨s, moves, cut, im, cut, im, moves.length⟩
        else some ⟨s, moves, cut, im, l.bestQ, l.bestI, l.idx⟩
      else some { l with s := s }
  else none

/-- the loop; it may stop after any iteration -/
def loop : Loop ι → List (Nat × Nat × Int) → Option (Loop ι)
  | l, [] => some l
  | l, x :: xs => match step c l x with
    | none => none
    | some l' => loop l' xs

/-- `rollback` (sequential_twoway_fm_refiner.cpp:292-302) -/
def rollback (Φ : Assign) (moves : List Nat) (idx : Nat) : Assign :=
  (moves.drop idx).foldl (fun Φ v => match Φ v with
    | none => Φ
    | some b => Φ.put v (1 - b)) Φ

/-- `refine` (sequential_twoway_fm_refiner.cpp:36-155): new state (with the partition), best quality and imbalance, return value -/
def refine (s : St) (q : Int) (im : ι) (order : List Nat) (xs : List (Nat × Nat × Int)) : Option (St × Int × ι × Bool) :=
  match loop c ⟨initSt c s order, [], q, im, q, im, 0⟩ xs with
  | none => none
  | some l => some ({ l.s with Φ := rollback l.s.Φ l.moves l.idx }, l.bestQ, l.bestI, decide (0 < l.idx))

/-- `refineCurrentPartition` for `k = 2` (initial_partitioning_data_container.h:311-316): at most one round per element of the list, which contains the
decisions of each round -/
def rounds (s : St) (q : Int) (im : ι) : List (List Nat × List (Nat × Nat × Int)) → Option (St × Int × ι)
  | [] => some (s, q, im)
  | r :: rs => match refine c s q im r.1 r.2 with
    | none => none
    | some (s', q', im', improved) => if improved then rounds s' q' im' rs else some (s', q', im')

end TwoWay
end Verif
