import Verif.Model.PrefixSum
/-!
# Model: parallel counting sort and reproducible random permutations

Sources: `mt-kahypar/parallel/chunking.h` (33-43), `mt-kahypar/parallel/parallel_counting_sort.h` (45-104),
`mt-kahypar/utils/reproducible_random.h` (`PrecomputeBucketOpt` 113-158, `ParallelShuffle` 176-233,
`ParallelPermutation` 235-273, `FeistelPermutation` 275-363).

Arrays are functions from indices, read and written only inside their bounds.  `tbb::parallel_for` over tasks
that write disjoint array positions is modelled by an arbitrary order of all single writes.  Counters are
natural numbers (no 32-bit overflow).  The Mersenne twister is an arbitrary function `mt seed i`, the `i`-th
output for a seed.
-/
namespace Verif
namespace CSort

/-- one array write -/
def put {α : Type} (a : Nat → α) (p : Nat) (v : α) : Nat → α := fun x => if x = p then v else a x

/-- a list of array writes, in the given order -/
def putAll {α : Type} (a : Nat → α) (ws : List (Nat × α)) : Nat → α := ws.foldl (fun a w => put a w.1 w.2) a

/-- chunking.h:35-37 -/
def idivCeil (a b : Nat) : Nat := (a + b - 1) / b

/-- chunking.h:39-41 -/
def bounds (i n c : Nat) : Nat × Nat := (min n (i * c), min n ((i + 1) * c))

section
variable {α : Type}

/-- sequential branch, first loop (parallel_counting_sort.h:97): counts at index `bucket + 2` -/
def seqCount (key : α → Nat) (inp : Nat → α) (n : Nat) : Nat → Nat :=
  (List.range n).foldl (fun c i => put c (key (inp i) + 2) (c (key (inp i) + 2) + 1)) (fun _ => 0)

/-- `std::partial_sum` in place (98) -/
def partialSum (c : Nat → Nat) : Nat → Nat := fun j => ((List.range (j + 1)).map c).sum

/-- sequential branch, last loop (99) -/
def seqPlace (key : α → Nat) (inp : Nat → α) (n : Nat) (begins : Nat → Nat) (out : Nat → α) : (Nat → Nat) × (Nat → α) :=
  (List.range n).foldl (fun s i =>
    let b := key (inp i)
    (put s.1 (b + 1) (s.1 (b + 1) + 1), put s.2 (s.1 (b + 1)) (inp i))) (begins, out)

/-- the sequential branch (97-99); returns bucket bounds and output -/
def seqSort (key : α → Nat) (inp : Nat → α) (n : Nat) (out : Nat → α) : (Nat → Nat) × (Nat → α) :=
  seqPlace key inp n (partialSum (seqCount key inp n)) out

/-- the indices of a task -/
def chunk (n c t : Nat) : List Nat := List.range' (bounds t n c).1 ((bounds t n c).2 - (bounds t n c).1)

/-- local counting of one task (57-63) -/
def localCount (key : α → Nat) (inp : Nat → α) (n c t : Nat) : Nat → Nat :=
  (chunk n c t).foldl (fun e i => put e (key (inp i)) (e (key (inp i)) + 1)) (fun _ => 0)

/-- accumulation over the tasks (66-78).  Both variants do the same for each bucket independently. -/
def accumulate (ends : Nat → Nat → Nat) (numTasks : Nat) : Nat → Nat → Nat :=
  (List.range' 1 (numTasks - 1)).foldl (fun e i => put e i (fun b => e i b + e (i - 1) b)) ends

/-- memory of the prefix sum (82-84): totals at `0..B-1`, `global_bucket_begins` (zeros) from `B` on -/
def prefixMem (total : Nat → Nat) (B : Nat) : Nat → Nat := fun i => if i < B then total i else 0

/-- `global_bucket_begins` after the prefix sum, for a schedule of `parallel_scan` -/
def parBegins (total : Nat → Nat) (B : Nat) (steps : List ScanStep) : Nat → Nat := fun j =>
  ScanSt.parallelPrefixSum (· + ·) 0 0 (B + 1) B (prefixMem total B) steps (B + j)

/-- the writes of one task (87-94): reverse iteration, decrementing the task's bucket ends -/
def taskWrites (key : α → Nat) (inp : Nat → α) (n c : Nat) (begins : Nat → Nat) (ends : Nat → Nat) (t : Nat) : List (Nat × α) :=
  ((chunk n c t).reverse.foldl (fun (s : (Nat → Nat) × List (Nat × α)) i =>
    let b := key (inp i)
    (put s.1 b (s.1 b - 1), s.2 ++ [(begins b + (s.1 b - 1), inp i)])) (ends, [])).2

/-- all writes of the parallel branch, task by task -/
def parWrites (key : α → Nat) (inp : Nat → α) (n B numTasks : Nat) (steps : List ScanStep) : List (Nat × α) :=
  let c := idivCeil n numTasks
  let ends := accumulate (fun t => localCount key inp n c t) numTasks
  (List.range numTasks).flatMap fun t => taskWrites key inp n c (parBegins (ends (numTasks - 1)) B steps) (ends t) t

/-- bucket bounds of the parallel branch -/
def parBounds (key : α → Nat) (inp : Nat → α) (n B numTasks : Nat) (steps : List ScanStep) : Nat → Nat :=
  parBegins (accumulate (fun t => localCount key inp n (idivCeil n numTasks) t) numTasks (numTasks - 1)) B steps

/-- `counting_sort` (45-104): the possible results (bucket bounds and output array) when the output array
contains `out` before.  `steps` and `ws` are the schedules of the prefix sum and of the element assignment. -/
inductive Sorts (key : α → Nat) (inp : Nat → α) (n B numTasks : Nat) (out : Nat → α) : (Nat → Nat) → (Nat → α) → Prop
  | seq : ¬ (numTasks > 1 ∧ n > 2 ^ 17) →
      Sorts key inp n B numTasks out (seqSort key inp n out).1 (seqSort key inp n out).2
  | par {steps : List ScanStep} {g : ScanGhost} {ws : List (Nat × α)} : numTasks > 1 ∧ n > 2 ^ 17 →
      ScanGhost.Steps B ScanGhost.init steps g → g.Complete B →
      ws.Perm (parWrites key inp n B numTasks steps) →
      Sorts key inp n B numTasks out (parBounds key inp n B numTasks steps) (putAll out ws)

end

/-! ### random buckets -/

/-- byte `i` of a 32-bit word (little endian) -/
def byteOf (x : BitVec 32) (i : Nat) : Nat := (x >>> (8 * i)).toNat % 256

/-- chunk size of `compute_buckets` (reproducible_random.h:119-122) -/
def bucketChunk (n numTasks : Nat) : Nat :=
  let c := idivCeil n numTasks
  if c % 4 ≠ 0 then c + (4 - c % 4) else c

/-- the writes of task `i` of `compute_buckets` (126-149) -/
def bucketTask (mt : Nat → Nat → BitVec 32) (n c seed i : Nat) : List (Nat × Nat) :=
  let localSeed := (mt seed i).toNat
  let lo := (bounds i n c).1
  let hi := (bounds i n c).2
  let over := hi % 4
  let trunc := hi - over
  ((List.range ((trunc - lo) / 4)).flatMap fun q =>
    (List.range 4).map fun r => (lo + 4 * q + r, byteOf (mt localSeed q) r)) ++
  if lo < hi then (List.range over).map fun j => (hi - j - 1, byteOf (mt localSeed ((trunc - lo) / 4)) j) else []

/-- all writes of `compute_buckets` (114-150) -/
def bucketWrites (mt : Nat → Nat → BitVec 32) (n numTasks seed : Nat) : List (Nat × Nat) :=
  let c := bucketChunk n numTasks
  (List.range (idivCeil n c)).flatMap fun i => bucketTask mt n c seed i

/-- `sample_buckets_and_group_by` (221-229) on the elements `inp 0 .. inp (n-1)`: possible results.  `buckets`
and `out` are the previous contents of the member arrays; `buckets` is only ever enlarged. -/
inductive Grouping (mt : Nat → Nat → BitVec 32) (inp : Nat → Nat) (n numTasks seed : Nat) (buckets : Nat → Nat)
    (out : Nat → Nat) : (Nat → Nat) → (Nat → Nat) → Prop
  | mk {ws : List (Nat × Nat)} {bd res : Nat → Nat} : ws.Perm (bucketWrites mt n numTasks seed) →
      Sorts (putAll buckets ws) inp n 256 numTasks out bd res →
      Grouping mt inp n numTasks seed buckets out bd res

/-! ### Feistel permutation -/

/-- the bit counting loop of `create_permutation` (286-290); `fuel` ≥ 64 iterations are never needed -/
def numBits (entries : Nat) : Nat → Nat → Nat → Nat
  | 0, bits, _ => bits
  | fuel + 1, bits, next => if next < entries ∧ next ≠ 0 then numBits entries fuel (bits + 1) (next * 2 % 2 ^ 64) else bits

structure Feistel where
  rightBits : Nat
  leftBits : Nat
  keys : List Nat

/-- `create_permutation` (278-298), the keys are arbitrary -/
def Feistel.create (keys : List Nat) (entries : Nat) : Feistel :=
  let b := numBits entries 64 0 1
  { rightBits := b / 2 + b % 2, leftBits := b / 2, keys := keys }

/-- the loop of `encrypt` and `decrypt` (307-312, 328-334): state `(l, r)`, masks `(lmask, rmask)` -/
def Feistel.rounds (F : Nat → Nat → Nat) : List Nat → (Nat × Nat) → (Nat × Nat) → (Nat × Nat)
  | [], s, _ => s
  | k :: ks, (l, r), (lm, rm) => Feistel.rounds F ks (r, (F k r &&& lm) ^^^ l) (rm, lm)

/-- `plant_shift` (345-347) -/
def Feistel.plantShift (p : Feistel) : Nat := if p.keys.length % 2 = 0 then p.leftBits else p.rightBits

/-- `encrypt` (300-316); `F` is the round function -/
def Feistel.encrypt (p : Feistel) (F : Nat → Nat → Nat) (x : Nat) : Nat :=
  let lm := 2 ^ p.leftBits - 1
  let rm := 2 ^ p.rightBits - 1
  let s := Feistel.rounds F p.keys (x >>> p.rightBits, x &&& rm) (lm, rm)
  (s.2 <<< p.plantShift) ||| s.1

/-- `decrypt` (318-337) -/
def Feistel.decrypt (p : Feistel) (F : Nat → Nat → Nat) (x : Nat) : Nat :=
  let m := (2 ^ p.leftBits - 1, 2 ^ p.rightBits - 1)
  let m := if p.keys.length % 2 = 0 then (m.2, m.1) else m
  let s := Feistel.rounds F p.keys.reverse (x >>> p.plantShift, x &&& m.2) m
  (s.2 <<< p.rightBits) ||| s.1

end CSort
end Verif
