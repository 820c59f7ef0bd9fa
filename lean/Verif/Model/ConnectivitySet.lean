/-!
# Model of the connectivity bit sets

Source: `mt-kahypar/datastructures/static_bitset.h`, `bitset.h`, `connectivity_set.h`,
`utils/bit_ops.h`.
-/
namespace Verif

/-- `__builtin_popcountll` (bit_ops.h:34-37) -/
def popcount64 (x : BitVec 64) : Nat := (List.range 64).countP (fun i => x.getLsbD i)

/-- `__builtin_ctzll` (bit_ops.h:39-41), undefined for 0 (the model returns 64). -/
def ctz64 (x : BitVec 64) : Nat := ((List.range 64).find? (fun i => x.getLsbD i)).getD 64

/-- `std::max(x, 1)` on `uint64_t` (static_bitset.h:110) -/
def max1 (x : BitVec 64) : BitVec 64 := if x = 0 then 1 else x

namespace OneBit

/-- The `while` loop of `OneBitIterator::nextBlockID` (static_bitset.h:99-105).  `c` is
`_current_block_id` (non-negative after the increment), `b` the block loaded last. -/
def scan (word : Nat → BitVec 64) (maxId : Nat) (c : Nat) (b : BitVec 64) : Nat × BitVec 64 :=
  if h : c < maxId then
    let b' := word (c / 64)
    if b' >>> (c % 64) ≠ 0 then (c, b') else scan word maxId (c + (64 - c % 64)) b'
  else (c, b)
termination_by maxId - c
decreasing_by have := Nat.mod_lt c (by decide : 64 > 0); omega

/-- `OneBitIterator::nextBlockID` (static_bitset.h:95-112); the argument is the value of
`_current_block_id` after `++_current_block_id`. -/
def next (word : Nat → BitVec 64) (maxId : Nat) (c : Nat) : Nat :=
  let r := scan word maxId c 0
  if r.1 = maxId then maxId
  else r.1 + ctz64 (max1 (r.2 >>> (r.1 % 64)))

/-- The sequence of values produced by `for (it = begin(); it != end(); ++it)`
(static_bitset.h:59-92, 143-149); `cur` is `*it`, `end()` is `maxId`.  `fuel` bounds the
number of iterations; the theorems hold for every sufficiently large fuel. -/
def collect (word : Nat → BitVec 64) (maxId : Nat) : Nat → Nat → List Nat
  | 0, _ => []
  | fuel + 1, cur =>
    if cur = maxId then [] else cur :: collect word maxId fuel (next word maxId (cur + 1))

/-- whole iteration over `numBlocks` words: `begin()` starts at -1 and advances once
(static_bitset.h:59-69, 143-145) when `-1 < _max_block_id`. -/
def iterate (fuel : Nat) (word : Nat → BitVec 64) (numBlocks : Nat) : List Nat :=
  collect word (numBlocks * 64) fuel (next word (numBlocks * 64) 0)

end OneBit

/-- `ConnectivitySets` (connectivity_set.h:62-197). `bits` is the array `_bits`. -/
structure ConnSets where
  /-- `_num_blocks_per_hyperedge` -/
  blocks : Nat
  bits : Nat → BitVec 64

namespace ConnSets

/-- constructor (connectivity_set.h:79-94) -/
def init (k : Nat) : ConnSets where
  blocks := k / 64 + (if k % 64 ≠ 0 then 1 else 0)
  bits := fun _ => 0

/-- `toggle` (connectivity_set.h:180-187); `add` and `remove` (103-109) are both `toggle`. -/
def toggle (s : ConnSets) (e p : Nat) : ConnSets :=
  { s with bits := fun i =>
      if i = e * s.blocks + p / 64 then s.bits i ^^^ ((1 : BitVec 64) <<< (p % 64)) else s.bits i }

/-- `contains` (connectivity_set.h:111-116) -/
def contains (s : ConnSets) (e p : Nat) : Bool :=
  (s.bits (e * s.blocks + p / 64) &&& ((1 : BitVec 64) <<< (p % 64))) ≠ 0

/-- `clear(he)` (connectivity_set.h:119-125) -/
def clear (s : ConnSets) (e : Nat) : ConnSets :=
  { s with bits := fun i =>
      if e * s.blocks ≤ i ∧ i < (e + 1) * s.blocks then 0 else s.bits i }

/-- `reset` (connectivity_set.h:127-137) -/
def reset (s : ConnSets) : ConnSets := { s with bits := fun _ => 0 }

/-- `connectivity` (connectivity_set.h:139-147) -/
def connectivity (s : ConnSets) (e : Nat) : Nat :=
  (List.range s.blocks).foldl (fun acc i => acc + popcount64 (s.bits (e * s.blocks + i))) 0

/-- `connectivitySet(he)` (connectivity_set.h:96-101): the values the iterator range yields. -/
def connSet (s : ConnSets) (e : Nat) : List Nat :=
  OneBit.iterate (s.blocks * 64 + 1) (fun i => s.bits (e * s.blocks + i)) s.blocks

end ConnSets
end Verif
