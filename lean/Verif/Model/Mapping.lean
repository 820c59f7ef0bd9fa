import Verif.Model.DetFlow
import Verif.Lemmas.GainComp3
import Verif.Model.Contraction
import Mathlib.Order.Defs.LinearOrder
/-!
# Model of the one-to-one mapping onto a target graph

* `partition/mapping/kerninghan_lin.cpp` (local search with block swaps)
* `partition/mapping/greedy_mapping.cpp` (greedy construction, choice of the best mapping)
* `partition/mapping/initial_mapping.cpp` (contraction of the blocks, application of the result)

The communication hypergraph has one node per block. `partID`, the connectivity sets and block weights are the functions of the specification
(C01-C04: the data structures return these values); the distance of a block set in the target graph is an arbitrary function of the set (C25, C39: what
`TargetGraph::distance` returns). Weights are integers without overflow. Hypergraphs only (graphs are another partition type).
-/
namespace Verif
namespace OneMap
open DFlow (set)

/-- communication hypergraph, fixed nodes, `TargetGraph::distance`, `use_individual_part_weights`, `max_part_weights` -/
structure Cfg where
  H : HG
  fixed : Nat → Bool
  dist : Finset Nat → Int
  indiv : Bool
  mx : Nat → Int

/-! ## Kernighan-Lin local search -/

/-- `vertex_swap` (kerninghan_lin.cpp:38-47) -/
def vertexSwap (Φ : Assign) (u v : Nat) : Assign :=
  match Φ u, Φ v with
  | some bu, some bv => (Φ.put u bv).put v bu
  | _, _ => Φ

/-- `swap_gain` for one hyperedge (kerninghan_lin.cpp:49-62), with `distanceAfterExchangingBlocks` (target_graph.h:182-195) -/
def exch (dist : Finset Nat → Int) (S : Finset Nat) (w : Int) (removed new : Nat) : Int := (dist S - dist (insert new (S.erase removed))) * w

/-- marking the hyperedges of `u` (kerninghan_lin.cpp:80-82) -/
def markAll (l : List Nat) (mk : Nat → Bool) : Nat → Bool := l.foldl (fun m e => set m e true) mk

/-- hyperedges of `v` (kerninghan_lin.cpp:84-95) -/
def gainV (f : Nat → Int) (l : List Nat) (x : Int × (Nat → Bool)) : Int × (Nat → Bool) :=
  l.foldl (fun x e => if x.2 e then (x.1, set x.2 e false) else (x.1 + f e, x.2)) x

/-- hyperedges of `u` (kerninghan_lin.cpp:97-106) -/
def gainU (f : Nat → Int) (l : List Nat) (x : Int × (Nat → Bool)) : Int × (Nat → Bool) :=
  l.foldl (fun x e => if x.2 e then (x.1 + f e, set x.2 e false) else x) x

/-- `swap_gain` (kerninghan_lin.cpp:64-109): gain and `marked_hes` -/
def swapGain (c : Cfg) (Φ : Assign) (mk : Nat → Bool) (u v : Nat) : Int × (Nat → Bool) :=
  match Φ u, Φ v with
  | some bu, some bv =>
    gainU (fun e => exch c.dist (c.H.blocksOf Φ e) (c.H.ew e) bu bv) (c.H.inc u)
      (gainV (fun e => exch c.dist (c.H.blocksOf Φ e) (c.H.ew e) bv bu) (c.H.inc v) (0, markAll (c.H.inc u) mk))
  | _, _ => (0, mk)

/-- an element of the queue: gain and the two nodes (kerninghan_lin.cpp:113-116) -/
abbrev Elem := Int × Nat × Nat

/-- `operator<` (kerninghan_lin.cpp:118-120) -/
def less (a b : Elem) : Bool := decide (a.1 < b.1) || (decide (a.1 = b.1) && (decide (a.2.1 < b.2.1) || (decide (a.2.1 = b.2.1) && decide (a.2.2 < b.2.2))))

/-- `top` and `pop` of the priority queue -/
def popMax : List Elem → Option (Elem × List Elem)
  | [] => none
  | a :: l => let m := l.foldl (fun m x => if less m x then x else m) a
    some (m, (a :: l).erase m)

/-- the block of an assigned node -/
def blk (Φ : Assign) (v : Nat) : Nat := (Φ v).getD 0

/-- `weight_is_valid` (kerninghan_lin.cpp:154-156) -/
def weightOk (c : Cfg) (Φ : Assign) (u v : Nat) : Bool :=
  !c.indiv || (decide (c.H.nw u ≤ c.mx (blk Φ v)) && decide (c.H.nw v ≤ c.mx (blk Φ u)))

/-- the pairs of the initial queue (kerninghan_lin.cpp:148-157) -/
def pairs (c : Cfg) (Φ : Assign) : List (Nat × Nat) :=
  c.H.nodes.flatMap (fun u => if c.fixed u then [] else
    (c.H.nodes.filter (fun v => !c.fixed v && decide (u < v) && weightOk c Φ u v)).map (fun v => (u, v)))

/-- the initial queue (kerninghan_lin.cpp:146-162) -/
def initPQ (c : Cfg) (Φ : Assign) (mk : Nat → Bool) : List Elem × (Nat → Bool) :=
  (pairs c Φ).foldl (fun x p => ((((swapGain c Φ x.2 p.1 p.2).1, p) : Elem) :: x.1, (swapGain c Φ x.2 p.1 p.2).2)) ([], mk)

/-- State of a pass: partition, `marked_hes`, `current_objective`, `pq`, `performed_swaps`, `already_moved`, `best_idx`, `best_objective`. -/
structure KL where
  Φ : Assign
  mk' : Nat → Bool
  cur : Int
  pq : List Elem
  swaps : List Elem
  moved : Nat → Bool
  bestIdx : Nat
  bestObj : Int

/-- a performed swap (kerninghan_lin.cpp:192-203) -/
def perform (st : KL) (m : Elem) (rest : List Elem) (mk : Nat → Bool) : KL :=
  let cur := st.cur - m.1
  let swaps := st.swaps ++ [m]
  { Φ := vertexSwap st.Φ m.2.1 m.2.2
    mk' := mk
    cur := cur
    pq := rest
    swaps := swaps
    moved := set (set st.moved m.2.1 true) m.2.2 true
    bestIdx := if cur ≤ st.bestObj then swaps.length else st.bestIdx
    bestObj := if cur ≤ st.bestObj then cur else st.bestObj }

/-- one iteration of the inner loop (kerninghan_lin.cpp:169-205); `none` if the queue is empty -/
def passStep (c : Cfg) (st : KL) : Option KL :=
  match popMax st.pq with
  | none => none
  | some (m, rest) =>
    if st.moved m.2.1 || st.moved m.2.2 then some { st with pq := rest }
    else if m.1 ≠ (swapGain c st.Φ st.mk' m.2.1 m.2.2).1 then
      some { st with pq := ((swapGain c st.Φ st.mk' m.2.1 m.2.2).1, m.2) :: rest, mk' := (swapGain c st.Φ st.mk' m.2.1 m.2.2).2 }
    else some (perform st m rest (swapGain c st.Φ st.mk' m.2.1 m.2.2).2)

/-- the inner loop; `none` if more than `fuel` iterations are necessary -/
def passLoop (c : Cfg) : Nat → KL → Option KL
  | 0, _ => none
  | n + 1, st => match passStep c st with
    | none => some st
    | some st' => passLoop c n st'

/-- `Rollback to best seen solution` (kerninghan_lin.cpp:207-212) -/
def rollback (st : KL) : Assign × Int :=
  (st.swaps.drop st.bestIdx).reverse.foldl (fun x m => (vertexSwap x.1 m.2.1 m.2.2, x.2 + m.1)) (st.Φ, st.cur)

/-- `MAX_NUMBER_OF_FRUITLESS_ROUNDS` (kerninghan_lin.h:44) -/
def maxFruitless : Nat := 2

/-- the passes (kerninghan_lin.cpp:141-224) -/
def improveLoop (c : Cfg) : Nat → Assign → (Nat → Bool) → Int → Nat → Option Assign
  | 0, _, _, _, _ => none
  | n + 1, Φ, mk, cur, fruitless =>
    match passLoop c n { Φ := Φ, mk' := (initPQ c Φ mk).2, cur := cur, pq := (initPQ c Φ mk).1, swaps := [], moved := fun _ => false, bestIdx := 0, bestObj := cur } with
    | none => none
    | some st =>
      let x := rollback st
      let fruitless' := if x.2 = cur then fruitless + 1 else 0
      if 0 < st.bestIdx ∧ fruitless' ≤ maxFruitless then improveLoop c n x.1 st.mk' x.2 fruitless' else some x.1

/-- `KerninghanLin::improve` (kerninghan_lin.cpp:130-226) -/
def improve (c : Cfg) (fuel : Nat) (Φ : Assign) : Option Assign := improveLoop c fuel Φ (fun _ => false) (c.H.steiner c.dist Φ) 0


/-! ## Greedy mapping -/

/-- In addition: number of processors, fixed blocks, weighted degree of the processors in the target graph, and the choice among equally good processors for a
node (`[0]` in deterministic mode, otherwise random). -/
structure GCfg extends Cfg where
  k : Nat
  fixedBlock : Nat → Nat
  deg : Nat → Int
  pick : Nat → List Nat → Nat

/-- Partition, `rating`, `visited_hes`, `up_to_date_ratings`, `unassigned_processors`, `pq`. -/
structure GSt where
  Φ : Assign
  rating : Nat → Int
  visited : Nat → Bool
  upd : Nat → Bool
  un : Nat → Bool
  pq : List (Int × Nat)

/-- the unassigned processors in increasing order -/
def freeProcs (c : GCfg) (un : Nat → Bool) : List Nat := (List.range c.k).filter un

/-- `get_node_with_minimum_weighted_degree` (greedy_mapping.cpp:63-91): the list `min_nodes`; `none` is the largest integer -/
def minProcs (c : GCfg) (un : Nat → Bool) (w : Int) : Option Int × List Nat :=
  (freeProcs c un).foldl (fun x p =>
    if c.indiv ∧ c.mx p < w then x
    else match x.1 with
      | none => (some (c.deg p), [p])
      | some d => if c.deg p < d then (some (c.deg p), [p]) else if c.deg p = d then (x.1, x.2 ++ [p]) else x) (none, [])

/-- `check_if_all_nodes_are_assigned` (greedy_mapping.cpp:110-123) -/
def checkAll (c : GCfg) (g : GSt) : GSt :=
  if g.pq = [] then
    match c.H.nodes.find? (fun v => (g.Φ v).isNone) with
    | none => g
    | some v => { g with pq := [(g.rating v, v)] }
  else g

/-- `rating`, `up_to_date_ratings`, `nodes_to_update`, `visited_hes` during `assign` -/
structure Upd where
  rating : Nat → Int
  upd : Nat → Bool
  todo : List Nat
  visited : Nat → Bool

/-- one pin (greedy_mapping.cpp:142-148) -/
def pinStep (c : GCfg) (w : Int) (x : Upd) (v : Nat) : Upd :=
  let x := { x with rating := set x.rating v (x.rating v + w) }
  if x.upd v && !c.fixed v then { x with todo := x.todo ++ [v], upd := set x.upd v false } else x

/-- one hyperedge (greedy_mapping.cpp:139-151) -/
def edgeStep (c : GCfg) (x : Upd) (e : Nat) : Upd :=
  if x.visited e then x else { (c.H.pins e).foldl (pinStep c (c.H.ew e)) x with visited := set ((c.H.pins e).foldl (pinStep c (c.H.ew e)) x).visited e true }

/-- `assign` (greedy_mapping.cpp:125-161) without the last check -/
def assign (c : GCfg) (g : GSt) (u p : Nat) : GSt :=
  let x := (c.H.inc u).foldl (edgeStep c) { rating := g.rating, upd := set g.upd u false, todo := [], visited := g.visited }
  { Φ := g.Φ.put u p
    rating := x.rating
    visited := x.visited
    upd := x.todo.foldl (fun f v => set f v true) x.upd
    un := set g.un p false
    pq := g.pq ++ x.todo.map (fun v => (x.rating v, v)) }

/-- `tmp_ratings` (greedy_mapping.cpp:204-214); the array is zero before and after its use -/
def procRating (c : GCfg) (Φ : Assign) (u p : Nat) : Int :=
  ((c.H.inc u).map (fun e => (c.dist (insert p (c.H.blocksOf Φ e)) - (if 0 < c.H.lam Φ e then c.dist (c.H.blocksOf Φ e) else 0)) * c.H.ew e)).sum

/-- one processor in the selection (greedy_mapping.cpp:221-234): `best_rating` (`none` is the largest integer), `best_is_balanced`, `tie_breaking` -/
def selectStep (r : Nat → Int) (bal : Nat → Bool) (x : Option Int × Bool × List Nat) (p : Nat) : Option Int × Bool × List Nat :=
  let atLeast := bal p || !x.2.1
  let bestBal := x.2.1 || bal p
  let lt := match x.1 with
    | none => true
    | some b => decide (r p < b)
  if (bal p && !bestBal) || (atLeast && lt) then (some (r p), bestBal, [p])
  else if atLeast && decide (x.1 = some (r p)) then (x.1, bestBal, x.2.2 ++ [p])
  else (x.1, bestBal, x.2.2)

/-- selection of the processors with the smallest rating (greedy_mapping.cpp:216-234) -/
def select (r : Nat → Int) (bal : Nat → Bool) (l : List Nat) : Option Int × Bool × List Nat := l.foldl (selectStep r bal) (none, false, [])

/-- the processor for node `u` (greedy_mapping.cpp:201-242) -/
def chosen (c : GCfg) (g : GSt) (u : Nat) : Nat :=
  c.pick u (select (procRating c g.Φ u) (fun p => !c.indiv || decide (c.H.nw u ≤ c.mx p)) (freeProcs c g.un)).2.2

/-- `operator<` (greedy_mapping.cpp:52-54) -/
def lessG (a b : Int × Nat) : Bool := decide (a.1 < b.1) || (decide (a.1 = b.1) && decide (a.2 < b.2))

/-- `top` and `pop` of the queue -/
def popG : List (Int × Nat) → Option ((Int × Nat) × List (Int × Nat))
  | [] => none
  | a :: l => let m := l.foldl (fun m x => if lessG m x then x else m) a
    some (m, (a :: l).erase m)

/-- one iteration of the main loop (greedy_mapping.cpp:190-243); `none` if the queue is empty -/
def greedyStep (c : GCfg) (g : GSt) : Option GSt :=
  match popG g.pq with
  | none => none
  | some (m, rest) =>
    if g.upd m.2 = false then some (checkAll c { g with pq := rest })
    else some (checkAll c (assign c { g with pq := rest } m.2 (chosen c { g with pq := rest } m.2)))

/-- the main loop; `none` if more than `fuel` iterations are necessary -/
def greedyLoop (c : GCfg) : Nat → GSt → Option GSt
  | 0, _ => none
  | n + 1, g => match greedyStep c g with
    | none => some g
    | some g' => greedyLoop c n g'

/-- the initial state: no node is assigned (greedy_mapping.cpp:100-108, 163-167) -/
def greedyInit (c : GCfg) : GSt where
  Φ := fun _ => none
  rating := fun _ => 0
  visited := fun _ => false
  upd := fun _ => true
  un := fun p => decide (p < c.k)
  pq := []

/-- the fixed nodes are assigned first (greedy_mapping.cpp:168-176) -/
def preassign (c : GCfg) : GSt := (c.H.nodes.filter c.fixed).foldl (fun g v => assign c g v (c.fixedBlock v)) (greedyInit c)

/-- `compute_greedy_mapping` (greedy_mapping.cpp:93-255); `none` if no processor is possible for the seed node (`min_nodes[0]` of an empty vector), or without
enough fuel -/
def greedy (c : GCfg) (fuel seed : Nat) : Option Assign :=
  if c.fixed seed then (greedyLoop c fuel (preassign c)).map (·.Φ)
  else if (minProcs c (preassign c).un (c.H.nw seed)).2 = [] then none
  else (greedyLoop c fuel (checkAll c (assign c (preassign c) seed (c.pick seed (minProcs c (preassign c).un (c.H.nw seed)).2)))).map (·.Φ)

/-! ## Choice of the best mapping and its application -/

/-- `best_objective`, `best_imbalance`, `best_hn_id` (`none` is `kInvalidHypernode`, which is larger than every node), `best_mapping`. Imbalances are elements of
a linear order (floating point numbers that are not NaN). -/
structure Best (α : Type) where
  obj : Int
  imb : α
  hn : Option Nat
  map : Assign

/-- the condition under which a mapping replaces the best one (greedy_mapping.cpp:289-298) -/
def takes {α : Type} [LinearOrder α] (eps : α) (b : Best α) (obj : Int) (imb : α) (hn : Nat) : Bool :=
  let equal := decide (obj = b.obj)
  let improved := decide (obj < b.obj)
  let improvedImb := decide (imb < b.imb)
  let feasible := decide (imb ≤ eps)
  let bestFeasible := decide (b.imb ≤ eps)
  (improved && (feasible || improvedImb)) || (equal && improvedImb) || (feasible && !bestFeasible) || (improvedImb && !feasible && !bestFeasible) ||
    (equal && decide (imb = b.imb) && (match b.hn with
      | none => false
      | some h => decide (h < hn)))

/-- the critical section for the mapping computed with seed node `hn` (greedy_mapping.cpp:285-306) -/
def commit {α : Type} [LinearOrder α] (c : Cfg) (imb : Assign → α) (eps : α) (b : Best α) (hn : Nat) (Φ : Assign) : Best α :=
  if takes eps b (c.H.steiner c.dist Φ) (imb Φ) hn then { obj := c.H.steiner c.dist Φ, imb := imb Φ, hn := some hn, map := Φ } else b

/-- node `i` is mapped to block `i` (greedy_mapping.cpp:270-271, initial_mapping.cpp:209-211) -/
def identity (c : Cfg) : Assign := fun v => if v ∈ c.H.nodes then some v else none

/-- the initial values (greedy_mapping.cpp:267-271) -/
def bestInit {α : Type} (c : Cfg) (imb : Assign → α) : Best α :=
  { obj := c.H.steiner c.dist (identity c), imb := imb (identity c), hn := none, map := identity c }

/-- the mapping for one seed node (greedy_mapping.cpp:274-282); `ls` is `use_local_search` -/
def candidate (c : GCfg) (ls : Bool) (fuel hn : Nat) : Option Assign :=
  match greedy c fuel hn with
  | none => none
  | some Φ => if ls then improve c.toCfg fuel Φ else some Φ

/-- one seed node -/
def searchStep {α : Type} [LinearOrder α] (c : GCfg) (imb : Assign → α) (eps : α) (ls : Bool) (fuel : Nat) (b : Option (Best α)) (hn : Nat) : Option (Best α) :=
  match b, candidate c ls fuel hn with
  | some b, some Φ => some (commit c.toCfg imb eps b hn Φ)
  | _, _ => none

/-- `GreedyMapping::mapToTargetGraph` (greedy_mapping.cpp:259-316); `order` is the order in which the tasks of the parallel loop enter the critical section
(each task works on its own partition) -/
def search {α : Type} [LinearOrder α] (c : GCfg) (imb : Assign → α) (eps : α) (ls : Bool) (fuel : Nat) (order : List Nat) : Option (Best α) :=
  order.foldl (searchStep c imb eps ls fuel) (some (bestInit c.toCfg imb))

/-- `map_to_target_graph` (initial_mapping.cpp:216-249) on the contracted hypergraph: the result is used only if it is better -/
def mapBlocks {α : Type} [LinearOrder α] (c : GCfg) (imb : Assign → α) (eps : α) (ls : Bool) (fuel : Nat) (order : List Nat) : Option Assign :=
  (search c imb eps ls fuel order).map (fun b => if c.H.steiner c.dist b.map < c.H.steiner c.dist (identity c.toCfg) then b.map else identity c.toCfg)

/-- The blocks of the input hypergraph are contracted (initial_mapping.cpp:189-214, no block is empty and `k` is at most the number of nodes); a coarse node is
fixed to the block of its fixed nodes (C37). -/
def contractedCfg (H : SHG) (part : Nat → Nat) (s : CSched) (buf : CBuf) (fixed : Nat → Bool) (base : GCfg) : GCfg :=
  { base with
    H := (Contract.contract H part s buf).1.toHG
    fixed := fun b => H.nodes.any (fun v => fixed v && decide ((Contract.contract H part s buf).2 v = b))
    fixedBlock := fun b => b }

/-- `InitialMapping::mapToTargetGraph` for static hypergraphs (initial_mapping.cpp:178-276): new block of every node -/
def mapPartition {α : Type} [LinearOrder α] (H : SHG) (part : Nat → Nat) (s : CSched) (buf : CBuf) (fixed : Nat → Bool) (base : GCfg)
    (imb : Assign → α) (eps : α) (ls : Bool) (fuel : Nat) (order : List Nat) : Option (Nat → Nat) :=
  (mapBlocks (contractedCfg H part s buf fixed base) imb eps ls fuel order).map
    (fun Φ v => if blk Φ ((Contract.contract H part s buf).2 v) = part v then part v else blk Φ ((Contract.contract H part s buf).2 v))

end OneMap
end Verif
