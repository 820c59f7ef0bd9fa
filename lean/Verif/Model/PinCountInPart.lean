import Mathlib.Data.Nat.Log
import Verif.Spec.Table
/-!
# Model of the bit-packed pin count table

Source: `mt-kahypar/datastructures/pin_count_in_part.h`.
-/
namespace Verif

/-- `PinCountInPart` (pin_count_in_part.h:56-258).  The backing array
`_pin_count_in_part : Array<uint64_t>` is the total function `data` together with its
allocated length `size`; that no index beyond `size` is ever touched is a separate
theorem (`packed_index_in_bounds`). -/
structure Packed where
  /-- `_num_hyperedges`, `_k`, `_max_value` -/
  m : Nat
  k : Nat
  maxValue : Nat
  /-- `_bits_per_element`, `_entries_per_value`, `_values_per_hyperedge`, `_extraction_mask` -/
  bits : Nat
  entries : Nat
  values : Nat
  mask : BitVec 64
  /-- allocated length and content of `_pin_count_in_part` -/
  size : Nat
  data : Nat → BitVec 64

namespace Packed

/-- pin_count_in_part.h:248-250 `num_bits_per_element`: `ceil(log2(double(max_value + 1)))`.
The floating point `log2` is modelled by the exact ceiling logarithm. -/
def numBitsPerElement (maxValue : Nat) : Nat := Nat.clog 2 (maxValue + 1)

/-- pin_count_in_part.h:240-246 `num_entries_per_value` -/
def numEntriesPerValue (k maxValue : Nat) : Nat :=
  min (64 / numBitsPerElement maxValue) k

/-- pin_count_in_part.h:233-238 `num_values_per_hyperedge` -/
def numValuesPerHyperedge (k maxValue : Nat) : Nat :=
  let e := numEntriesPerValue k maxValue
  k / e + (if k % e ≠ 0 then 1 else 0)

/-- pin_count_in_part.h:118-134 `initialize` (called with `num_hyperedges > 0`; for
`num_hyperedges = 0` the code leaves everything zero, no entry exists in either case).
The extraction mask is `pow(2, bits) - 1`. -/
def init (m k maxValue : Nat) : Packed where
  m := m
  k := k
  maxValue := maxValue
  bits := numBitsPerElement maxValue
  entries := numEntriesPerValue k maxValue
  values := numValuesPerHyperedge k maxValue
  mask := BitVec.ofNat 64 (2 ^ numBitsPerElement maxValue - 1)
  size := m * numValuesPerHyperedge k maxValue
  data := fun _ => 0

/-- `value_pos` (pin_count_in_part.h:152, 164, 174, 189) -/
def valuePos (s : Packed) (e b : Nat) : Nat := e * s.values + b / s.entries

/-- `bit_pos` (pin_count_in_part.h:153, 165, 175, 190) -/
def bitPos (s : Packed) (b : Nat) : Nat := (b % s.entries) * s.bits

/-- pin_count_in_part.h:148-156 `pinCountInPart` -/
def get (s : Packed) (e b : Nat) : Nat :=
  let pos := s.bitPos b
  ((s.data (s.valuePos e b) &&& (s.mask <<< pos)) >>> pos).toNat

/-- pin_count_in_part.h:220-227 `updateEntry` -/
def updateEntry (mask word : BitVec 64) (pos : Nat) (v : Nat) : BitVec 64 :=
  (word &&& ~~~(mask <<< pos)) ||| (BitVec.ofNat 64 v <<< pos)

/-- pin_count_in_part.h:159-167 `setPinCountInPart` -/
def set (s : Packed) (e b v : Nat) : Packed :=
  { s with data := fun i =>
      if i = s.valuePos e b then updateEntry s.mask (s.data i) (s.bitPos b) v else s.data i }

/-- pin_count_in_part.h:170-182 `incrementPinCountInPart` -/
def incr (s : Packed) (e b : Nat) : Nat × Packed :=
  let c := s.get e b
  (c + 1, s.set e b (c + 1))

/-- pin_count_in_part.h:185-197 `decrementPinCountInPart`.  The C++ subtraction is unsigned
and wraps for a zero entry; the model truncates to 0, callers never decrement a zero entry
(an explicit hypothesis of every theorem). -/
def decr (s : Packed) (e b : Nat) : Nat × Packed :=
  let c := s.get e b
  (c - 1, s.set e b (c - 1))

/-- pin_count_in_part.h:136-138 `reset` -/
def reset (s : Packed) : Packed := { s with data := fun _ => 0 }

end Packed
end Verif

namespace Verif
namespace Packed

/-- Dispatch of a client operation to the three mutators
(pin_count_in_part.h:159-197); the number is the return value. -/
def exec (s : Packed) : PCOp → Nat × Packed
  | .set e b v => (0, s.set e b v)
  | .incr e b => s.incr e b
  | .decr e b => s.decr e b

/-- A history of calls; collects the returned values. -/
def execAll (s : Packed) : List PCOp → List Nat × Packed
  | [] => ([], s)
  | o :: os =>
    let r := s.exec o
    let rs := r.2.execAll os
    (r.1 :: rs.1, rs.2)

/-- the index into `_pin_count_in_part` that an operation reads and writes
(pin_count_in_part.h:152, 164, 174, 189) -/
def touched (s : Packed) : PCOp → Nat
  | .set e b _ => s.valuePos e b
  | .incr e b => s.valuePos e b
  | .decr e b => s.valuePos e b

end Packed

/-- `PinCountSnapshot` (pin_count_snapshot.h:42-195): the packed words of one hyperedge. -/
structure Snapshot where
  bits : Nat
  entries : Nat
  mask : BitVec 64
  size : Nat
  data : Nat → BitVec 64

namespace Snapshot

/-- pin_count_snapshot.h:49-59 constructor -/
def init (k maxValue : Nat) : Snapshot where
  bits := Packed.numBitsPerElement maxValue
  entries := Packed.numEntriesPerValue k maxValue
  mask := BitVec.ofNat 64 (2 ^ Packed.numBitsPerElement maxValue - 1)
  size := Packed.numValuesPerHyperedge k maxValue
  data := fun _ => 0

/-- pin_count_snapshot.h:86-88 `snapshot`: `memcpy` of `size` words starting at `src`. -/
def copyFrom (t : Snapshot) (src : Nat → BitVec 64) : Snapshot :=
  { t with data := fun i => if i < t.size then src i else t.data i }

/-- pin_count_snapshot.h:91-97 `pinCountInPart` -/
def get (t : Snapshot) (b : Nat) : Nat :=
  let pos := (b % t.entries) * t.bits
  ((t.data (b / t.entries) &&& (t.mask <<< pos)) >>> pos).toNat

/-- pin_count_snapshot.h:100-106, 135-142 `setPinCountInPart` -/
def set (t : Snapshot) (b v : Nat) : Snapshot :=
  { t with data := fun i => if i = b / t.entries then
      Packed.updateEntry t.mask (t.data i) ((b % t.entries) * t.bits) v else t.data i }

/-- pin_count_snapshot.h:109-119 `incrementPinCountInPart` -/
def incr (t : Snapshot) (b : Nat) : Nat × Snapshot :=
  let c := t.get b
  (c + 1, t.set b (c + 1))

/-- pin_count_snapshot.h:122-132 `decrementPinCountInPart` -/
def decr (t : Snapshot) (b : Nat) : Nat × Snapshot :=
  let c := t.get b
  (c - 1, t.set b (c - 1))

end Snapshot

/-- pin_count_in_part.h:140-145 `snapshot(he)`: copies the words of hyperedge `e` into a
(thread-local) `PinCountSnapshot`. -/
def Packed.snapshot (s : Packed) (e : Nat) : Snapshot :=
  (Snapshot.init s.k s.maxValue).copyFrom (fun i => s.data (e * s.values + i))

end Verif
