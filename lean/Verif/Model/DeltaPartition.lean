import Verif.Model.PartitionedHypergraph
import Verif.Model.GainCache
import Verif.Model.Maps
/-!
# Model: thread-local partition of a local search

Sources: `mt-kahypar/datastructures/delta_partitioned_hypergraph.h`, `delta_connectivity_set.h` and the delta gain
caches (`DeltaKm1GainCache`, `DeltaCutGainCache`, `DeltaSoedGainCache` in `partition/refinement/gains/*/*_gain_cache.h`).

The shared partition `P : PHG σ` is a parameter that no operation changes.  Hash maps are the `FlatMap` model of
`DynamicFlatMap`; an operation returns `none` if a probing loop would not terminate.
-/
namespace Verif

/-- Data of the shared connectivity set as words: `shallowCopy(he).data()` -/
abbrev ConWords (σ : Type) := σ → Nat → Nat → BitVec 64

/-- `ConnectivitySets::shallowCopy` (connectivity_set.h:150-155) -/
def denseWords : ConWords (Packed × ConnSets) := fun s e i => s.2.bits (e * s.2.blocks + i)

/-- `Bitset::set` (bitset.h:101-106) -/
def setBit (w : Nat → BitVec 64) (b : Nat) : Nat → BitVec 64 :=
  fun i => if i = b / 64 then w i ||| ((1 : BitVec 64) <<< (b % 64)) else w i

/-- `SparsePinCounts::shallowCopy`, i.e. `deepCopy` (sparse_pin_counts.h:273-289) -/
def sparseWords : ConWords SparsePC := fun s e => ((s.rows e).connSet s.k).foldl setBit (fun _ => 0)

/-- `e * _k + p` in `HyperedgeID` arithmetic (delta_partitioned_hypergraph.h:251, 318, 324): 32 bits in the default
build -/
def pcIdx (k e p : Nat) : Nat := (e * k + p) % 2 ^ 32

/-- `_num_blocks_per_hyperedge` (delta_connectivity_set.h:150) -/
def numWords (k : Nat) : Nat := k / 64 + (if k % 64 ≠ 0 then 1 else 0)

/-- Members of `DeltaPartitionedHypergraph` (353-373), `DeltaConnectivitySet` (281-286) and of the delta gain cache -/
structure DPHG where
  wtD : Nat → Int
  ids : FlatMap Nat
  pcs : FlatMap Int
  touched : FlatMap Nat
  bits : List (BitVec 64)
  gain : FlatMap Int

namespace DPHG
variable {σ : Type} (C : ConInfo σ) (W : ConWords σ) (H : HG) (k : Nat) (o : Metrics.Obj) (P : PHG σ)

/-- constructor (78-87), delta_connectivity_set.h:147-157; `c` is the logarithm of the size of the delta gain cache -/
def create (c : Nat) : DPHG :=
  { wtD := fun _ => 0, ids := FlatMap.create 7 0, pcs := FlatMap.create 14 0, touched := FlatMap.create 4 0,
    bits := [], gain := FlatMap.create c 0 }

/-- `partID` (223-227) -/
def partID (D : DPHG) (u : Nat) : Option (Option Nat) :=
  match D.ids.getIfContained u with
  | none => none
  | some (some b) => some (some b)
  | some none => some (P.part u)

/-- `partWeight` (236-240) -/
def partWeight (D : DPHG) (b : Nat) : Int := P.wt b + D.wtD b

/-- `pinCountInPart` (243-249) -/
def pinCount (D : DPHG) (e b : Nat) : Option Nat :=
  (D.pcs.getIfContained (pcIdx k e b)).map fun d => (max ((C.pinCount P.con e b : Int) + d.getD 0) 0).toNat

/-- `incrementPinCountOfBlock`, `decrementPinCountOfBlock` (315-325), `x` is 1 or -1 -/
def addPin (D : DPHG) (e b : Nat) (x : Int) : Option (Nat × DPHG) :=
  match D.pcs.modify 0 (pcIdx k e b) (· + x) with
  | none => none
  | some s => match s.getIfContained (pcIdx k e b) with
    | none => none
    | some d => some ((max ((C.pinCount P.con e b : Int) + d.getD 0) 0).toNat, { D with pcs := s })

/-- `DeltaConnectivitySet::toggle` (delta_connectivity_set.h:252-263); `add` and `remove` call it -/
def toggle (D : DPHG) (e b : Nat) : Option DPHG :=
  match D.touched.getIfContained e with
  | none => none
  | some (some pos) =>
    some { D with bits := D.bits.modify (pos + b / 64) (· ^^^ ((1 : BitVec 64) <<< (b % 64))) }
  | some none =>
    match D.touched.modify 0 e (fun _ => D.bits.length) with
    | none => none
    | some t => some { D with
        touched := t
        bits := (D.bits ++ List.replicate (numWords k) 0).modify (D.bits.length + b / 64)
          (· ^^^ ((1 : BitVec 64) <<< (b % 64))) }

/-- `updateConnectivitySet` (327-336) -/
def updateCon (D : DPHG) (s : EdgeUpdate) : Option DPHG :=
  match (if s.srcAfter = 0 then D.toggle k s.he s.src else some D) with
  | none => none
  | some D1 => if s.dstAfter = 1 then D1.toggle k s.he s.dst else some D1

/-- one operation of `deltaGainUpdate` on the delta gain cache (`operator[]` and `+=`) -/
def gainOp (D : DPHG) : CacheOp → Option DPHG
  | .add i x => (D.gain.modify 0 i (· + x)).map fun g => { D with gain := g }
  | .addIf u b i x =>
    match D.partID P u with
    | none => none
    | some p => if p = some b then (D.gain.modify 0 i (· + x)).map fun g => { D with gain := g } else some D

/-- `deltaGainUpdate` of the delta gain cache of objective `o` (km1_gain_cache.h:413-447 and its twins): the same
operations as on the shared cache -/
def gainOps (D : DPHG) : List CacheOp → Option DPHG
  | [] => some D
  | op :: ops => match D.gainOp P op with
    | none => none
    | some D1 => gainOps D1 ops

/-- loop body of `changeNodePart` (194-205) with the delta gain update as delta function -/
def updateEdge (mc : Bool) (D : DPHG) (e src dst : Nat) : Option (EdgeUpdate × DPHG) :=
  match D.addPin C k P e src (-1) with
  | none => none
  | some (a, D1) => match D1.addPin C k P e dst 1 with
    | none => none
    | some (b, D2) =>
      let s : EdgeUpdate := { he := e, src := src, dst := dst, weight := H.ew e, size := (H.pins e).length,
                              srcAfter := a, dstAfter := b }
      match (if mc then D2.updateCon k s else some D2) with
      | none => none
      | some D3 => (D3.gainOps P (gainDelta o k (H.pins e) s)).map fun D4 => (s, D4)

def updateEdges (mc : Bool) (src dst : Nat) : DPHG → List Nat → Option (List EdgeUpdate × DPHG)
  | D, [] => some ([], D)
  | D, e :: es => match D.updateEdge C H k o P mc e src dst with
    | none => none
    | some (s, D1) => (updateEdges mc src dst D1 es).map fun r => (s :: r.1, r.2)

/-- `changeNodePart` (176-213); `mc` is the template parameter `maintain_connectivity_set` -/
def changeNodePart (mc : Bool) (D : DPHG) (u src dst : Nat) (maxTo : Int) : Option (Bool × List EdgeUpdate × DPHG) :=
  let wu := H.nw u
  if D.partWeight P dst + wu ≤ maxTo then
    match D.ids.modify 0 u (fun _ => dst) with
    | none => none
    | some ids =>
      let D1 : DPHG := { D with ids := ids, wtD := addWt (addWt D.wtD dst wu) src (-wu) }
      (D1.updateEdges C H k o P mc src dst (H.inc u)).map fun r => (true, r.1, r.2)
  else some (false, [], D)

/-- `clear` (267-274), `DeltaConnectivitySet::reset` (delta_connectivity_set.h:206-209), `clear` of the gain cache -/
def clear (D : DPHG) : DPHG :=
  { wtD := fun _ => 0, ids := D.ids.clear, pcs := D.pcs.clear, touched := D.touched.clear, bits := [],
    gain := D.gain.clear }

/-- the thread-local words of a hyperedge: its entry or `_empty_connectivity_set` (delta_connectivity_set.h:175-178) -/
def localWords (D : DPHG) (e : Nat) : Option (Nat → BitVec 64) :=
  (D.touched.getIfContained e).map fun r => match r with
    | some pos => fun i => D.bits.getD (pos + i) 0
    | none => fun _ => 0

/-- the words the iterator, `connectivity` and `deepCopy` look at: shared xor thread-local
(delta_connectivity_set.h:134, 220, 238) -/
def words (D : DPHG) (e : Nat) : Option (Nat → BitVec 64) :=
  (D.localWords e).map fun l i => W P.con e i ^^^ l i

/-- `nextBlockID` (delta_connectivity_set.h:113-127); the argument is `_current_block_id` after the increment -/
def nextBlock (word : Nat → BitVec 64) (maxId : Nat) (c : Nat) : Nat :=
  if h : c < maxId then
    let b := word (c / 64)
    if b >>> (c % 64) = 0 then nextBlock word maxId (c + (64 - c % 64)) else c + ctz64 (b >>> (c % 64))
  else maxId
termination_by maxId - c
decreasing_by have := Nat.mod_lt c (by decide : 64 > 0); omega

/-- values yielded by the iterator range -/
def collect (word : Nat → BitVec 64) (maxId : Nat) : Nat → Nat → List Nat
  | 0, _ => []
  | fuel + 1, cur => if cur = maxId then [] else cur :: collect word maxId fuel (nextBlock word maxId (cur + 1))

/-- `connectivitySet` (delta_connectivity_set.h:173-183) -/
def connSet (D : DPHG) (e : Nat) : Option (List Nat) :=
  (D.words W P e).map fun w => collect w (numWords k * 64) (numWords k * 64 + 1) (nextBlock w (numWords k * 64) 0)

/-- `connectivity` (delta_connectivity_set.h:212-228): for an untouched hyperedge the popcount of the shared set -/
def connectivity (D : DPHG) (e : Nat) : Option Nat :=
  (D.touched.getIfContained e).map fun r => match r with
    | some pos => (List.range (numWords k)).foldl (fun acc i => acc + popcount64 (W P.con e i ^^^ D.bits.getD (pos + i) 0)) 0
    | none => (List.range (numWords k)).foldl (fun acc i => acc + popcount64 (W P.con e i)) 0

/-- `gain(u, from, to) = benefitTerm(u, to) - penaltyTerm(u, from)` of the delta gain cache (km1_gain_cache.h:378-407) -/
def localGain (D : DPHG) (cache : Nat → Int) (u dst : Nat) : Option Int :=
  match D.gain.getIfContained (benIdx k u dst), D.gain.getIfContained (penIdx k u) with
  | some b, some p => some ((cache (benIdx k u dst) + b.getD 0) - (cache (penIdx k u) + p.getD 0))
  | _, _ => none

end DPHG
end Verif
