import Verif.Model.PinCountInPart
import Verif.Model.ConnectivitySet
import Verif.Model.SparsePinCounts
/-!
# The connectivity information used as template parameter of `PartitionedHypergraph`

Source: `mt-kahypar/datastructures/connectivity_info.h`, and `decrementPinCountOfBlock`,
`incrementPinCountOfBlock` of `partitioned_hypergraph.h`.
-/
namespace Verif

/-- The interface shared by `ConnectivityInfo` and `SparseConnectivityInfo`
(connectivity_info.h:79-161, 217-296). -/
structure ConInfo (σ : Type) where
  pinCount : σ → Nat → Nat → Nat
  connectivity : σ → Nat → Nat
  contains : σ → Nat → Nat → Bool
  connSet : σ → Nat → List Nat
  setPC : σ → Nat → Nat → Nat → σ
  incr : σ → Nat → Nat → Nat × σ
  decr : σ → Nat → Nat → Nat × σ
  addBlock : σ → Nat → Nat → σ
  removeBlock : σ → Nat → Nat → σ
  reset : σ → σ

namespace ConInfo
variable {σ : Type} (C : ConInfo σ)

/-- `incrementPinCountOfBlock` (partitioned_hypergraph.h:1267-1277) -/
def incBlock (s : σ) (e b : Nat) : Nat × σ :=
  let r := C.incr s e b
  (r.1, if r.1 = 1 then C.addBlock r.2 e b else r.2)

/-- `decrementPinCountOfBlock` (partitioned_hypergraph.h:1255-1265) -/
def decBlock (s : σ) (e b : Nat) : Nat × σ :=
  let r := C.decr s e b
  (r.1, if r.1 = 0 then C.removeBlock r.2 e b else r.2)

end ConInfo

/-- `ConnectivityInfo` (connectivity_info.h:38-183): packed pin counts and bit sets. -/
def denseCon : ConInfo (Packed × ConnSets) where
  pinCount s e b := s.1.get e b
  connectivity s e := s.2.connectivity e
  contains s e b := s.2.contains e b
  connSet s e := s.2.connSet e
  setPC s e b v := (s.1.set e b v, s.2)
  incr s e b := let r := s.1.incr e b; (r.1, (r.2, s.2))
  decr s e b := let r := s.1.decr e b; (r.1, (r.2, s.2))
  addBlock s e b := (s.1, s.2.toggle e b)
  removeBlock s e b := (s.1, s.2.toggle e b)
  reset s := (s.1.reset, s.2.reset)

/-- Constructor (connectivity_info.h:47-51). -/
def denseInit (m k maxValue : Nat) : Packed × ConnSets :=
  (Packed.init m k maxValue, ConnSets.init k)

/-- `SparseConnectivityInfo` (connectivity_info.h:185-311): `addBlock`/`removeBlock` do
nothing. -/
def sparseCon : ConInfo SparsePC where
  pinCount s e b := (s.rows e).get b
  connectivity s e := (s.rows e).conn
  contains s e b := (s.rows e).contains b
  connSet s e := (s.rows e).connSet s.k
  setPC s e b v := s.setRow e ((s.rows e).add b v)
  incr s e b := let r := (s.rows e).incr b; (r.1, s.setRow e r.2)
  decr s e b := let r := (s.rows e).decr b; (r.1, s.setRow e r.2)
  addBlock s _ _ := s
  removeBlock s _ _ := s
  reset s := SparsePC.init s.k

end Verif
