import Verif.Model.Maps
/-!
# Model: addressable d-ary heap

Models `mt-kahypar/datastructures/priority_queue.h`, class `Heap` (43-309), generic in the key type,
the comparator and the arity.  `heap` is the vector of elements stored as (id, key); `pos` the
array `positions`, which may contain anything for ids that are not in the heap (it is not
initialised for `setHandle`, and shared between the heaps of different blocks).
`PosT` (uint32) is unbounded.  Preconditions of `assert`s are not part of the model; reading an
element of an empty heap is modelled as reading arbitrary memory.
-/
namespace Verif
open SMap (wr)

/-- `heap.size()`, `heap`, `positions` -/
structure Heap (K : Type) where
  size : Nat
  heap : Nat → Nat × K
  pos : Nat → Nat

namespace Heap
variable {K : Type} [DecidableEq K] (comp : K → K → Bool) (arity : Nat)

/-- 217-219 -/
def parent (p : Nat) : Nat := (p - 1) / arity

/-- 221-223 -/
def firstChild (p : Nat) : Nat := p * arity + 1

/-- The loop of `siftUp`, 230-235. The first argument bounds the number of iterations. -/
def siftUpLoop (k : K) : Nat → (Nat → Nat × K) → (Nat → Nat) → Nat →
    (Nat → Nat × K) × (Nat → Nat) × Nat
  | 0, h, q, p => (h, q, p)
  | fuel + 1, h, q, p =>
    let pp := parent arity p
    if p > 0 ∧ comp (h pp).2 k = true then
      siftUpLoop k fuel (wr h p (h pp)) (wr q (h pp).1 p) pp
    else (h, q, p)

/-- `siftUp`, 225-242 -/
def siftUp (s : Heap K) (p : Nat) : Heap K :=
  let k := (s.heap p).2
  let id := (s.heap p).1
  let r := siftUpLoop comp arity k p s.heap s.pos p
  { s with heap := wr r.1 r.2.2 (id, k), pos := wr r.2.1 id r.2.2 }

/-- Choice of the largest child, 253-286: a scan for arity > 2, the branch-free variant for 2. -/
def largestChild (h : Nat → Nat × K) (size p : Nat) : Nat :=
  let first := firstChild arity p
  if arity > 2 then
    let firstInvalid := min size (firstChild arity (p + 1))
    ((List.range' (first + 1) (firstInvalid - (first + 1))).foldl (fun (st : Nat × K) c =>
      if comp st.2 (h c).2 = true then (c, (h c).2) else st) (first, (h first).2)).1
  else
    let second := min (first + 1) (size - 1)
    if comp (h first).2 (h second).2 = true then second else first

/-- The loop of `siftDown`, 249-293 -/
def siftDownLoop (size : Nat) (k : K) : Nat → (Nat → Nat × K) → (Nat → Nat) → Nat →
    (Nat → Nat × K) × (Nat → Nat) × Nat
  | 0, h, q, p => (h, q, p)
  | fuel + 1, h, q, p =>
    let first := firstChild arity p
    if first < size ∧ first ≠ p then
      let l := largestChild comp arity h size p
      if comp (h l).2 k = true ∨ (h l).2 = k then (h, q, p)
      else siftDownLoop size k fuel (wr h p (h l)) (wr q (h l).1 p) l
    else (h, q, p)

/-- `siftDown`, 244-302 -/
def siftDown (s : Heap K) (p : Nat) : Heap K :=
  let k := (s.heap p).2
  let id := (s.heap p).1
  let r := siftDownLoop comp arity s.size k s.size s.heap s.pos p
  if r.2.2 ≠ p then { s with heap := wr r.1 r.2.2 (id, k), pos := wr r.2.1 id r.2.2 }
  else { s with heap := r.1, pos := r.2.1 }

/-- `top`, 56-58 -/
def top (s : Heap K) : Nat := (s.heap 0).1
/-- `topKey`, 60-62 -/
def topKey (s : Heap K) : K := (s.heap 0).2

/-- `contains`, 147-150 -/
def contains (s : Heap K) (e : Nat) : Bool := s.pos e < s.size && (s.heap (s.pos e)).1 = e

/-- `getKey` / `keyOf`, 130-133 and 164-166 -/
def getKey (s : Heap K) (e : Nat) : K := (s.heap (s.pos e)).2

/-- `deleteTop`, 64-73 (`inv` stands for `invalid_position`) -/
def deleteTop (inv : Nat) (s : Heap K) : Heap K :=
  let last := s.heap (s.size - 1)
  let pos := wr (wr s.pos (s.heap 0).1 inv) last.1 0
  let s' : Heap K := { size := s.size - 1, heap := wr s.heap 0 last, pos := pos }
  if s'.size ≠ 0 then s'.siftDown comp arity 0 else s'

/-- `insert`, 75-82 -/
def insert (s : Heap K) (e : Nat) (k : K) : Heap K :=
  let p := s.size
  siftUp comp arity { size := s.size + 1, heap := wr s.heap p (e, k), pos := wr s.pos e p } p

/-- `remove`, 84-100 -/
def remove (inv : Nat) (s : Heap K) (e : Nat) : Heap K :=
  let p := s.pos e
  let removedKey := (s.heap p).2
  let last := s.heap (s.size - 1)
  let s' : Heap K := { size := s.size - 1, heap := wr s.heap p last,
                       pos := wr (wr s.pos last.1 p) e inv }
  if p = s'.size then s'
  else if comp removedKey last.2 = true then s'.siftUp comp arity p else s'.siftDown comp arity p

/-- `increaseKey`, 103-109 -/
def increaseKey (s : Heap K) (e : Nat) (k : K) : Heap K :=
  let p := s.pos e
  siftUp comp arity { s with heap := wr s.heap p ((s.heap p).1, k) } p

/-- `decreaseKey`, 112-118 -/
def decreaseKey (s : Heap K) (e : Nat) (k : K) : Heap K :=
  let p := s.pos e
  siftDown comp arity { s with heap := wr s.heap p ((s.heap p).1, k) } p

/-- `adjustKey`, 120-128 -/
def adjustKey (s : Heap K) (e : Nat) (k : K) : Heap K :=
  let p := s.pos e
  if comp (s.heap p).2 k = true then s.increaseKey comp arity e k
  else if comp k (s.heap p).2 = true then s.decreaseKey comp arity e k
  else s

/-- `insertOrAdjustKey`, 135-141 -/
def insertOrAdjust (s : Heap K) (e : Nat) (k : K) : Heap K :=
  if s.contains e then s.adjustKey comp arity e k else s.insert comp arity e k

/-- `clear`, 143-145 -/
def clear (s : Heap K) : Heap K := { s with size := 0 }

end Heap

/-- Operations of a client.  `foreign e p`: another heap that shares the positions array stores `p`
for element `e`. -/
inductive HeapOp (K : Type) where
  | insert (e : Nat) (k : K)
  | deleteTop
  | remove (e : Nat)
  | adjustKey (e : Nat) (k : K)
  | increaseKey (e : Nat) (k : K)
  | decreaseKey (e : Nat) (k : K)
  | insertOrAdjust (e : Nat) (k : K)
  | clear
  | foreign (e p : Nat)

def Heap.exec {K : Type} [DecidableEq K] (comp : K → K → Bool) (arity inv : Nat) (s : Heap K) :
    HeapOp K → Heap K
  | .insert e k => s.insert comp arity e k
  | .deleteTop => s.deleteTop comp arity inv
  | .remove e => s.remove comp arity inv e
  | .adjustKey e k => s.adjustKey comp arity e k
  | .increaseKey e k => s.increaseKey comp arity e k
  | .decreaseKey e k => s.decreaseKey comp arity e k
  | .insertOrAdjust e k => s.insertOrAdjust comp arity e k
  | .clear => s.clear
  | .foreign e p => { s with pos := wr s.pos e p }

end Verif
