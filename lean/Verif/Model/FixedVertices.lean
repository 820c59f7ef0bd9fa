/-!
# Model: fixed vertices

Source: `mt-kahypar/datastructures/fixed_vertex_support.{h,cpp}`, its use in
`mt-kahypar/datastructures/dynamic_hypergraph.cpp` (`contract` 533-626, `uncontract` 153-163), in
`static_hypergraph.cpp` 484-495 and `io/hypergraph_factory.cpp` 229-247.

Simplifications: weights are integers (no 32-bit overflow).  A call is atomic: the dynamic hypergraph
calls `contract` with the locks of both nodes held, and `uncontract` only writes data of `u` (counter
under the lock of `u`) and `v`.
-/
namespace Verif

/-- `FixedVertexData` (fixed_vertex_support.h:46-55); `none` is `kInvalidPartition` -/
structure FVData where
  block : Option Nat
  cnt : Nat
  weight : Int

/-- `FixedVertexSupport` (fixed_vertex_support.h:196-215) -/
structure FVS where
  k : Nat
  total : Int
  bw : Nat → Int
  maxw : Nat → Int
  data : Nat → FVData

namespace FVS

/-- constructor (fixed_vertex_support.h:67-75) -/
def create (k : Nat) (maxw : Nat → Int) : FVS :=
  { k := k, total := 0, bw := fun _ => 0, maxw := maxw, data := fun _ => { block := none, cnt := 0, weight := 0 } }

/-- `hasFixedVertices` (fixed_vertex_support.h:98-100) -/
def hasFixed (s : FVS) : Bool := decide (0 < s.total)

/-- `isFixed` (fixed_vertex_support.h:138-140) -/
def isFixed (s : FVS) (u : Nat) : Bool := (s.data u).block.isSome

def setData (s : FVS) (u : Nat) (d : FVData) : Nat → FVData := fun x => if x = u then d else s.data x

def addBw (s : FVS) (b : Nat) (w : Int) : Nat → Int := fun x => if x = b then s.bw x + w else s.bw x

/-- `fixToBlock` (fixed_vertex_support.h:115-135) -/
def fixToBlock (s : FVS) (nw : Nat → Int) (u b : Nat) : FVS :=
  match (s.data u).block with
  | none => { s with total := s.total + nw u, bw := s.addBw b (nw u)
                     data := s.setData u { block := some b, cnt := 1, weight := nw u } }
  | some _ => s

/-- one iteration of the loops calling `fixToBlock` for fixed nodes only -/
def fixIf (s : FVS) (nw : Nat → Int) (u : Nat) : Option Nat → FVS
  | some b => s.fixToBlock nw u b
  | none => s

/-- `contractImpl` (fixed_vertex_support.cpp:45-116) -/
def contractImpl (s : FVS) (nw : Nat → Int) (u v : Nat) (ignoreV : Bool) : Bool × FVS :=
  match (s.data u).block, (s.data v).block with
  | none, none => (true, s)
  | none, some b =>
    -- u becomes fixed
    let bw1 := s.addBw b (nw u)
    if bw1 b ≤ s.maxw b then
      (true, { s with total := s.total + nw u, bw := bw1
                      data := s.setData u { block := some b, cnt := 1, weight := nw u } })
    else (false, { s with bw := fun x => if x = b then bw1 x - nw u else bw1 x })
  | some b, none =>
    -- v becomes fixed
    let bw1 := s.addBw b (nw v)
    if bw1 b ≤ s.maxw b then
      (true, { s with total := s.total + nw v, bw := bw1
                      data := if ignoreV then s.data
                              else s.setData v { (s.data v) with block := some b, weight := nw v } })
    else (false, { s with bw := fun x => if x = b then bw1 x - nw v else bw1 x })
  | some b, some c =>
    if b = c then (true, { s with data := s.setData u { (s.data u) with cnt := (s.data u).cnt + 1 } })
    else (false, s)

/-- `uncontract` (fixed_vertex_support.cpp:119-156) -/
def uncontract (s : FVS) (u v : Nat) : FVS :=
  match (s.data v).block with
  | none => s
  | some bv =>
    if 0 < (s.data v).cnt then
      let c := (s.data u).cnt - 1
      let d : FVData := { (s.data u) with cnt := c }
      if c = 0 then
        { s with total := s.total - d.weight
                 bw := match d.block with
                   | some b => s.addBw b (-d.weight)
                   | none => s.bw
                 data := s.setData u { d with block := none } }
      else { s with data := s.setData u d }
    else
      { s with total := s.total - (s.data v).weight, bw := s.addBw bv (-(s.data v).weight)
               data := s.setData v { (s.data v) with block := none } }

/-- `addFixedVertices` (hypergraph_factory.cpp:229-247) for valid block ids, nodes visited in `order` -/
def addFixed (k : Nat) (maxw : Nat → Int) (nw : Nat → Int) (fixed : Nat → Option Nat) (order : List Nat) : FVS :=
  order.foldl (fun s u => s.fixIf nw u (fixed u)) (create k maxw)

end FVS

/-- The part of an n-level hypergraph that concerns fixed vertices: node weights, enabled nodes, the
registered contractions that have not been undone, and the fixed vertex support. -/
structure NLevel where
  nw : Nat → Int
  enabled : Nat → Bool
  tree : List (Nat × Nat)
  fv : FVS

inductive NOp where
  /-- `contract(u, v)` with a maximum node weight -/
  | contract (u v : Nat) (maxNodeWeight : Int)
  /-- `uncontract` of the memento `(u, v)` -/
  | uncontract (u v : Nat)

namespace NLevel

/-- `valid_contraction` (dynamic_hypergraph.cpp:549-557): the result of the checks and the fixed vertex support -/
def tryContract (s : NLevel) (u v : Nat) (lim : Int) : Bool × FVS :=
  if s.nw u + s.nw v ≤ lim then
    if s.fv.hasFixed then s.fv.contractImpl s.nw u v false else (true, s.fv)
  else (false, s.fv)

/-- `DynamicHypergraph::contract` (533-626) and `uncontract` (153-163), projected to this state; `none`
if the caller violates the contract (nodes not enabled, memento not registered) -/
def step (s : NLevel) : NOp → Option NLevel
  | .contract u v lim =>
    if u ≠ v ∧ s.enabled u = true ∧ s.enabled v = true then
      let r := s.tryContract u v lim
      if r.1 then
        some { nw := fun x => if x = u then s.nw u + s.nw v else s.nw x
               enabled := fun x => if x = v then false else s.enabled x
               tree := (u, v) :: s.tree
               fv := r.2 }
      else some { s with fv := r.2 }
    else none
  | .uncontract u v =>
    if (u, v) ∈ s.tree ∧ s.enabled u = true then
      some { nw := fun x => if x = u then s.nw u - s.nw v else s.nw x
             enabled := fun x => if x = v then true else s.enabled x
             tree := s.tree.erase (u, v)
             fv := if s.fv.hasFixed then s.fv.uncontract u v else s.fv }
    else none

def exec (s : NLevel) : List NOp → Option NLevel
  | [] => some s
  | o :: os => match s.step o with
    | some s' => exec s' os
    | none => none

/-- input hypergraph with nodes `nodes` and fixed vertices -/
def create (nodes : List Nat) (nw : Nat → Int) (fv : FVS) : NLevel :=
  { nw := nw, enabled := fun u => nodes.contains u, tree := [], fv := fv }

end NLevel
end Verif

namespace Verif
namespace FVS

/-- The fixed vertices of a contracted static hypergraph (static_hypergraph.cpp:484-495, identical in
static_graph.cpp:352-363): `com` is the mapping to coarse nodes, `nwC` are the coarse weights, the fine
nodes are visited in `order`.  Without fixed vertices a default-constructed object stays in place. -/
def contractStatic (s : FVS) (maxw : Nat → Int) (nwC : Nat → Int) (com : Nat → Nat) (order : List Nat) : FVS :=
  if s.hasFixed then
    order.foldl (fun t u => t.fixIf nwC (com u) (s.data u).block) (create s.k maxw)
  else create 0 maxw

end FVS
end Verif
