import Verif.Spec.Map
/-!
# Model: sparse maps, hash maps with linear probing, resettable flag arrays

Models `mt-kahypar/datastructures/sparse_map.h` (`SparseMap`, `FixedSizeSparseMap`,
`DynamicSparseMap`, `DynamicFlatMap`) and `thread_safe_fast_reset_flag_array.h`.

Memory is a total function from indices to contents whose initial contents are arbitrary where the
code does not initialise it.  Values are of any type `V`.  Keys are natural numbers; the time stamps
(`size_t`) are unbounded.
-/
namespace Verif

/-! ## `SparseMap` (sparse_map.h:62-247) -/

/-- `_size`, `_sparse`, `_dense` -/
structure SMap (V : Type) where
  size : Nat
  sparse : Nat → Nat
  dense : Nat → Nat × V

namespace SMap
variable {V : Type}

/-- `f[i] := v` -/
def wr {α : Type} (f : Nat → α) (i : Nat) (v : α) : Nat → α := fun x => if x = i then v else f x

/-- Constructor (143-149, 164-176): the memory is not initialised. -/
def create (sparse : Nat → Nat) (dense : Nat → Nat × V) : SMap V := ⟨0, sparse, dense⟩

/-- `containsImpl`, 224-227 -/
def contains (s : SMap V) (key : Nat) : Bool :=
  let index := s.sparse key
  index < s.size && (s.dense index).1 = key

/-- `addImpl`, 230-236 -/
def add (s : SMap V) (key : Nat) (value : V) : SMap V :=
  let index := s.sparse key
  if index ≥ s.size ∨ (s.dense index).1 ≠ key then
    { size := s.size + 1, sparse := wr s.sparse key s.size, dense := wr s.dense s.size (key, value) }
  else s

/-- `operator[]` followed by an assignment through the returned reference, 112-120 -/
def modify (d : V) (s : SMap V) (key : Nat) (g : V → V) : SMap V :=
  let index := s.sparse key
  if ¬ s.contains key then
    { size := s.size + 1, sparse := wr s.sparse key s.size, dense := wr s.dense s.size (key, g d) }
  else { s with dense := wr s.dense index ((s.dense index).1, g (s.dense index).2) }

/-- `remove`, 214-221 (`std::swap` of the two dense entries, then `_sparse[...] = index`) -/
def remove (s : SMap V) (key : Nat) : SMap V :=
  let index := s.sparse key
  if index < s.size ∧ (s.dense index).1 = key then
    let x := s.dense index
    let y := s.dense (s.size - 1)
    let dense := wr (wr s.dense index y) (s.size - 1) x
    { size := s.size - 1, sparse := wr s.sparse (dense index).1 index, dense := dense }
  else s

/-- `clearImpl`, 238-240 -/
def clear (s : SMap V) : SMap V := { s with size := 0 }

/-- `getOrDefault`, 127-133 -/
def getOrDefault (d : V) (s : SMap V) (key : Nat) : V :=
  let index := s.sparse key
  if ¬ s.contains key then d else (s.dense index).2

/-- iteration `begin()` .. `end()`, 92-106 -/
def toList (s : SMap V) : List (Nat × V) := (List.range s.size).map s.dense

def exec (d : V) (s : SMap V) : MapOp V → SMap V
  | .modify k g => s.modify d k g
  | .add k v => s.add k v
  | .remove k => s.remove k
  | .clear => s.clear

end SMap

/-! ## Linear probing -/

/-- The probing loop shared by sparse_map.h:385-396, 624-633 and 718-727.  `occ h` is the key stored
in slot `h` if its time stamp is current.  The result is the slot and whether the key was found;
`none` means that the loop has not terminated after `fuel` slots. -/
def lpFind (occ : Nat → Option Nat) (cap key : Nat) : Nat → Nat → Option (Nat × Bool)
  | 0, _ => none
  | fuel + 1, h =>
    match occ h with
    | none => some (h, false)
    | some x => if x = key then some (h, true) else lpFind occ cap key fuel ((h + 1) &&& (cap - 1))

/-! ## `FixedSizeSparseMap` and `DynamicSparseMap` (sparse_map.h:261-441, 448-676) -/

/-- `_capacity`, `_size`, `_timestamp`, `_sparse` (index of the dense element instead of a pointer,
time stamp) and `_dense`. -/
structure HMap (V : Type) where
  cap : Nat
  size : Nat
  ts : Nat
  sparse : Nat → Nat × Nat
  dense : Nat → Nat × V

namespace HMap
variable {V : Type}
open SMap (wr)

/-- `allocate` (416-429) / `initialize` (478-486): zeroed memory, time stamp 1; capacity `2^c`
(`align_to_next_power_of_two` of the requested size). -/
def create (c : Nat) (d : V) : HMap V :=
  { cap := 2 ^ c, size := 0, ts := 1, sparse := fun _ => (0, 0), dense := fun _ => (0, d) }

def occ (s : HMap V) (h : Nat) : Option Nat :=
  if (s.sparse h).2 = s.ts then some (s.dense (s.sparse h).1).1 else none

/-- `find` 385-396 / `findImpl` 624-633.  The loop runs over at most `cap` slots before it repeats. -/
def find (s : HMap V) (key : Nat) : Option (Nat × Bool) :=
  lpFind s.occ s.cap key s.cap (key &&& (s.cap - 1))

/-- `addElement` 407-414 / `addElementImpl` 641-646 -/
def addElement (s : HMap V) (key : Nat) (v : V) (pos : Nat) : HMap V :=
  { s with dense := wr s.dense s.size (key, v), sparse := wr s.sparse pos (s.size, s.ts),
           size := s.size + 1 }

/-- write through the reference `_sparse[pos].element->value` -/
def writeAt (s : HMap V) (pos : Nat) (g : V → V) : HMap V :=
  let i := (s.sparse pos).1
  { s with dense := wr s.dense i ((s.dense i).1, g (s.dense i).2) }

/-- `FixedSizeSparseMap::operator[]` and a write through the result, 356-364. `none`: `find` does
not terminate. -/
def modifyFixed (d : V) (s : HMap V) (key : Nat) (g : V → V) : Option (HMap V) :=
  match s.find key with
  | none => none
  | some (pos, true) => some (s.writeAt pos g)
  | some (pos, false) => some ((s.addElement key d pos).writeAt pos g)

/-- `rehashImpl`, 653-664: re-insert the dense elements in order. -/
def rehash (s : HMap V) : List (Nat × V) → Option (HMap V)
  | [] => some s
  | (k, v) :: l =>
    match s.find k with
    | none => none
    | some (pos, _) => rehash (s.addElement k v pos) l

def toList (s : HMap V) : List (Nat × V) := (List.range s.size).map s.dense

/-- `grow`, 530-540: fresh zeroed memory of twice the capacity, then rehash. -/
def grow (d : V) (s : HMap V) : Option (HMap V) :=
  rehash { cap := 2 * s.cap, size := 0, ts := 1, sparse := fun _ => (0, 0), dense := fun _ => (0, d) }
    s.toList

/-- `DynamicMapBase::operator[]` (493-505) and a write through the result, `DynamicSparseMap`. -/
def modifyDyn (d : V) (s : HMap V) (key : Nat) (g : V → V) : Option (HMap V) :=
  match s.find key with
  | none => none
  | some (pos, true) => some (s.writeAt pos g)
  | some (pos, false) =>
    if s.size + 1 > (s.cap * 2) / 5 then
      match s.grow d with
      | none => none
      | some s' =>
        match s'.find key with
        | none => none
        | some (pos', _) => some ((s'.addElement key d pos').writeAt pos' g)
    else some ((s.addElement key d pos).writeAt pos g)

/-- `clear`, 371-374 / 520-523 -/
def clear (s : HMap V) : HMap V := { s with size := 0, ts := s.ts + 1 }

/-- `contains`, 351-354 / 488-491 -/
def contains (s : HMap V) (key : Nat) : Option Bool := (s.find key).map Prod.snd

/-- `get_if_contained`, 511-518 (for `FixedSizeSparseMap`: `get` guarded by `contains`) -/
def getIfContained (s : HMap V) (key : Nat) : Option (Option V) :=
  (s.find key).map fun p => if p.2 then some (s.dense (s.sparse p.1).1).2 else none

/-- Only `operator[]` and `clear` exist in these classes. -/
def execFixed (d : V) (s : HMap V) : MapOp V → Option (HMap V)
  | .modify k g => s.modifyFixed d k g
  | .clear => some s.clear
  | _ => none

def execDyn (d : V) (s : HMap V) : MapOp V → Option (HMap V)
  | .modify k g => s.modifyDyn d k g
  | .clear => some s.clear
  | _ => none

end HMap

/-! ## `DynamicFlatMap` (sparse_map.h:679-765) -/

/-- `_elements` holds key, value and time stamp in the slot itself. -/
structure FlatMap (V : Type) where
  cap : Nat
  size : Nat
  ts : Nat
  elems : Nat → (Nat × V) × Nat

namespace FlatMap
variable {V : Type}
open SMap (wr)

/-- `initialize`, 478-486: zeroed memory -/
def create (c : Nat) (d : V) : FlatMap V :=
  { cap := 2 ^ c, size := 0, ts := 1, elems := fun _ => ((0, d), 0) }

def occ (s : FlatMap V) (h : Nat) : Option Nat :=
  if (s.elems h).2 = s.ts then some (s.elems h).1.1 else none

/-- `findImpl`, 718-727 -/
def find (s : FlatMap V) (key : Nat) : Option (Nat × Bool) :=
  lpFind s.occ s.cap key s.cap (key &&& (s.cap - 1))

/-- `addElementImpl`, 735-740 -/
def addElement (s : FlatMap V) (key : Nat) (v : V) (pos : Nat) : FlatMap V :=
  { s with elems := wr s.elems pos ((key, v), s.ts), size := s.size + 1 }

def writeAt (s : FlatMap V) (pos : Nat) (g : V → V) : FlatMap V :=
  { s with elems := wr s.elems pos (((s.elems pos).1.1, g (s.elems pos).1.2), (s.elems pos).2) }

/-- `rehashImpl`, 746-759: old slots in order, skipping stale ones. -/
def rehash (old : Nat → (Nat × V) × Nat) (oldTs : Nat) (s : FlatMap V) : List Nat → Option (FlatMap V)
  | [] => some s
  | i :: l =>
    if (old i).2 = oldTs then
      match s.find (old i).1.1 with
      | none => none
      | some (pos, _) => rehash old oldTs (s.addElement (old i).1.1 (old i).1.2 pos) l
    else rehash old oldTs s l

/-- `grow`, 530-540 -/
def grow (d : V) (s : FlatMap V) : Option (FlatMap V) :=
  rehash s.elems s.ts { cap := 2 * s.cap, size := 0, ts := 1, elems := fun _ => ((0, d), 0) }
    (List.range s.cap)

/-- `operator[]` (493-505) and a write through the result -/
def modify (d : V) (s : FlatMap V) (key : Nat) (g : V → V) : Option (FlatMap V) :=
  match s.find key with
  | none => none
  | some (pos, true) => some (s.writeAt pos g)
  | some (pos, false) =>
    if s.size + 1 > (s.cap * 2) / 5 then
      match s.grow d with
      | none => none
      | some s' =>
        match s'.find key with
        | none => none
        | some (pos', _) => some ((s'.addElement key d pos').writeAt pos' g)
    else some ((s.addElement key d pos).writeAt pos g)

def clear (s : FlatMap V) : FlatMap V := { s with size := 0, ts := s.ts + 1 }

def contains (s : FlatMap V) (key : Nat) : Option Bool := (s.find key).map Prod.snd

def getIfContained (s : FlatMap V) (key : Nat) : Option (Option V) :=
  (s.find key).map fun p => if p.2 then some (s.elems p.1).1.2 else none

def exec (d : V) (s : FlatMap V) : MapOp V → Option (FlatMap V)
  | .modify k g => s.modify d k g
  | .clear => some s.clear
  | _ => none

end FlatMap

/-! ## `ThreadSafeFastResetFlagArray` (thread_safe_fast_reset_flag_array.h) -/

/-- `_v`, `_threshold`, `_size`; `mx` is `std::numeric_limits<Type>::max()`. -/
structure FlagArr where
  mx : Nat
  v : Nat → Nat
  threshold : Nat
  size : Nat

namespace FlagArr

/-- `initialize`, 138-143 -/
def initAll (s : FlagArr) (init : Bool) : FlagArr :=
  { s with v := fun i => if i < s.size then (if init then s.threshold else 0) else s.v i }

/-- constructor with a size, 47-52 -/
def create (mx n : Nat) (garbage : Nat → Nat) : FlagArr :=
  FlagArr.initAll { mx := mx, v := garbage, threshold := 1, size := n } false

/-- `isSet`, 134-136 -/
def isSet (s : FlagArr) (i : Nat) : Bool := s.v i = s.threshold

/-- `set` / `setUnsafe`, 94-100 -/
def set (s : FlagArr) (i : Nat) (b : Bool) : FlagArr :=
  { s with v := SMap.wr s.v i (if b then s.threshold else 0) }

/-- `compare_and_set_to_true`, 79-92 without interference (see `CasState` for concurrent calls) -/
def compareAndSet (s : FlagArr) (i : Nat) : Bool × FlagArr :=
  if s.v i ≠ s.threshold then (true, { s with v := SMap.wr s.v i s.threshold }) else (false, s)

/-- `reset`, 102-108 -/
def reset (s : FlagArr) : FlagArr :=
  if s.threshold = s.mx then
    let s' := s.initAll false
    { s' with threshold := 0 + 1 }
  else { s with threshold := s.threshold + 1 }

/-- `resize`, 121-131; the new memory is value-initialised -/
def resize (s : FlagArr) (n : Nat) (init : Bool) : FlagArr :=
  if n > s.size then FlagArr.initAll { s with v := fun _ => 0, size := n } init
  else { s with size := n }

def exec (s : FlagArr) : FlagOp → Bool × FlagArr
  | .set i b => (false, s.set i b)
  | .compareAndSet i => s.compareAndSet i
  | .reset => (false, s.reset)
  | .resize n init => (false, s.resize n init)

def execAll : FlagArr → List FlagOp → List Bool × FlagArr
  | s, [] => ([], s)
  | s, o :: os =>
    let r := s.exec o
    let q := execAll r.2 os
    (r.1 :: q.1, q.2)

end FlagArr

/-- A concurrent execution of `compare_and_set_to_true(i)` (79-92) by many callers on one entry: the
current value and, for each caller, its program position. -/
inductive CasPc where
  | idle
  /-- loaded `expected` -/
  | loaded (expected : Nat)
  | returned (r : Bool)

structure CasState where
  cell : Nat
  pc : Nat → CasPc

/-- One atomic step of caller `t`: the load, or the test and compare-exchange. -/
def CasState.step (threshold : Nat) (s : CasState) (t : Nat) : CasState :=
  match s.pc t with
  | .idle => { s with pc := SMap.wr s.pc t (.loaded s.cell) }
  | .loaded e =>
    if e ≠ threshold then
      if s.cell = e then { cell := threshold, pc := SMap.wr s.pc t (.returned true) }
      else { s with pc := SMap.wr s.pc t (.returned false) }
    else { s with pc := SMap.wr s.pc t (.returned false) }
  | .returned _ => s

end Verif
