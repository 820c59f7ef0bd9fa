/-!
# Model of the sparse pin count lists (LARGE_K preset)

Source: `mt-kahypar/datastructures/sparse_pin_counts.h`.
-/
namespace Verif

/-- `PinCountEntry` (sparse_pin_counts.h:77-80); `none` is `kInvalidPartition`. -/
abbrev PCEntry := Option Nat × Nat

/-- The data of one hyperedge: `PinCountHeader`, the inline entries
(sparse_pin_counts.h:68-74, 528-547) and the external list `_ext_pin_count_list[he]`. -/
structure SRow where
  conn : Nat
  ext : Bool
  inl : List PCEntry
  extl : List PCEntry

namespace SRow

/-- `MAX_ENTRIES_PER_HYPEREDGE` (sparse_pin_counts.h:66) -/
def maxEntries : Nat := 8

/-- `init_pin_count_of_hyperedge` (sparse_pin_counts.h:437-447); `entries` is
`_entries_per_hyperedge = min(k, 8)` (382-383). -/
def init (entries : Nat) : SRow where
  conn := 0
  ext := false
  inl := List.replicate entries (none, 0)
  extl := []

/-- the entries that `find_entry` and the iterator look at -/
def arr (r : SRow) : List PCEntry := if r.ext then r.extl else r.inl

/-- `find_entry` (sparse_pin_counts.h:500-522): index of the first entry of block `p`. -/
def find (r : SRow) (p : Nat) : Option Nat :=
  if r.ext then (r.extl.take r.conn).findIdx? (fun x => x.1 = some p)
  else (r.inl.take (min r.conn maxEntries)).findIdx? (fun x => x.1 = some p)

/-- `pinCountInPart` (sparse_pin_counts.h:294-300) -/
def get (r : SRow) (p : Nat) : Nat :=
  match r.find p with
  | some i => (r.arr.getD i (none, 0)).2
  | none => 0

/-- write entry `i` of the list that is in use -/
def setArr (r : SRow) (i : Nat) (x : PCEntry) : SRow :=
  if r.ext then { r with extl := r.extl.set i x } else { r with inl := r.inl.set i x }

/-- `add_pin_count_entry_to_external` (sparse_pin_counts.h:485-498) -/
def addExternal (r : SRow) (p v : Nat) : SRow :=
  if r.conn < r.extl.length then { r with extl := r.extl.set r.conn (some p, v) }
  else { r with extl := r.extl ++ [(some p, v)] }

/-- `handle_overflow` (sparse_pin_counts.h:476-483) -/
def overflow (r : SRow) : SRow := { r with extl := r.extl ++ r.inl, ext := true }

/-- `add_pin_count_entry` (sparse_pin_counts.h:449-474); also `setPinCountInPart` (303-309).
`inl.length` is `_entries_per_hyperedge`. -/
def add (r : SRow) (p v : Nat) : SRow :=
  let r' :=
    if !r.ext then
      if r.conn < r.inl.length then { r with inl := r.inl.set r.conn (some p, v) }
      else r.overflow.addExternal p v
    else r.addExternal p v
  { r' with conn := r'.conn + 1 }

/-- `incrementPinCountInPart` (sparse_pin_counts.h:312-325) -/
def incr (r : SRow) (p : Nat) : Nat × SRow :=
  match r.find p with
  | some i =>
    let c := (r.arr.getD i (none, 0)).2 + 1
    (c, r.setArr i (some p, c))
  | none => (1, r.add p 1)

/-- `decrementPinCountInPart` (sparse_pin_counts.h:328-361).  If the block has no entry the
C++ code dereferences a null pointer; the model leaves the row unchanged and returns 0, and
callers are required not to do this. -/
def decr (r : SRow) (p : Nat) : Nat × SRow :=
  match r.find p with
  | none => (0, r)
  | some i =>
    let c := (r.arr.getD i (none, 0)).2 - 1
    let r1 := r.setArr i (some p, c)
    if c = 0 then
      let con := r.conn - 1
      if !r.ext then
        let back := r1.inl.getD con (none, 0)
        (c, { r1 with conn := con, inl := (r1.inl.set i back).set con (none, 0) })
      else
        let pos := r1.extl.findIdx (fun x => x.1 = some p)
        let a := r1.extl.getD pos (none, 0)
        let b := r1.extl.getD con (none, 0)
        (c, { r1 with conn := con, extl := (((r1.extl.set pos b).set con a).set con (none, 0)) })
    else (c, r1)

/-- `connectivitySet` (sparse_pin_counts.h:258-271) with the iterator (85-173), which skips
entries that are not valid (block in `[0,k)` and positive count). -/
def connSet (r : SRow) (k : Nat) : List Nat :=
  (r.arr.take r.conn).filterMap (fun x =>
    match x.1 with
    | some b => if b < k ∧ 0 < x.2 then some b else none
    | none => none)

/-- `contains` (sparse_pin_counts.h:241-245) -/
def contains (r : SRow) (p : Nat) : Bool := (r.find p).isSome

end SRow

/-- `SparsePinCounts`: one row per hyperedge (sparse_pin_counts.h:62-580). -/
structure SparsePC where
  k : Nat
  rows : Nat → SRow

namespace SparsePC

/-- `initialize` / `reset` (sparse_pin_counts.h:375-403) -/
def init (k : Nat) : SparsePC := { k := k, rows := fun _ => SRow.init (min k SRow.maxEntries) }

/-- replace the row of hyperedge `e` -/
def setRow (s : SparsePC) (e : Nat) (r : SRow) : SparsePC :=
  { s with rows := fun i => if i = e then r else s.rows i }

end SparsePC
end Verif
