/-!
# Model: parallel prefix sums

Models `mt-kahypar/parallel/parallel_prefix_sum.h`: `ParallelPrefixSumBody` (39-82),
`sequential_prefix_sum` / `parallel_prefix_sum` (84-107) and `parallel::TBBPrefixSum` (113-170).

The memory is one array `mem : Nat → α`.  The input occupies `a, a+1, …, a+n-1`, the output
`b, …, b+n-1`; `a = b` is the in-place use (always the case for `TBBPrefixSum`).

`tbb::parallel_scan` is modelled by its contract: it manipulates a set of body objects by the five
operations below.  One call of `operator()` on a range is one step: calls that overlap in time work
on different body objects and different ranges.
-/
namespace Verif

/-- The part of the state that `parallel_scan` manipulates: the memory and the `sum` members of the
body objects (numbered; body 0 is the one passed by the user). -/
structure ScanSt (α : Type) where
  mem : Nat → α
  sum : Nat → α

/-- The operations `tbb::parallel_scan` performs on body objects. -/
inductive ScanStep where
  /-- splitting constructor creating body `c` -/
  | split (c : Nat)
  /-- `body c` called on `[l, r)` with `pre_scan_tag` -/
  | pre (c l r : Nat)
  /-- `body c` called on `[l, r)` with `final_scan_tag` -/
  | fin (c l r : Nat)
  /-- `right.reverse_join(left)` -/
  | join (right left : Nat)
  /-- `c.assign(d)` -/
  | assign (c d : Nat)

namespace ScanSt
variable {α : Type}

/-- parallel_prefix_sum.h:62-66 and 148-158 with `is_final_scan() = false` -/
def preLoop (f : α → α → α) (a : Nat) (mem : Nat → α) (l n : Nat) (s : α) : α :=
  (List.range' l n).foldl (fun s i => f s (mem (a + i))) s

/-- parallel_prefix_sum.h:68-73 and 148-158 with `is_final_scan() = true` -/
def finLoop (f : α → α → α) (a b : Nat) (l n : Nat) (st : (Nat → α) × α) : (Nat → α) × α :=
  (List.range' l n).foldl (fun st i =>
    let s := f st.2 (st.1 (a + i))
    (fun x => if x = b + i then s else st.1 x, s)) st

/-- One operation.  `reverse_join` computes `f(sum, other.sum)` (line 75-77, 160-162). -/
def step (f : α → α → α) (z : α) (a b : Nat) (s : ScanSt α) : ScanStep → ScanSt α
  | .split c => { s with sum := fun x => if x = c then z else s.sum x }
  | .pre c l r =>
    let v := preLoop f a s.mem l (r - l) (s.sum c)
    { s with sum := fun x => if x = c then v else s.sum x }
  | .fin c l r =>
    let st := finLoop f a b l (r - l) (s.mem, s.sum c)
    { mem := st.1, sum := fun x => if x = c then st.2 else s.sum x }
  | .join right left =>
    { s with sum := fun x => if x = right then f (s.sum right) (s.sum left) else s.sum x }
  | .assign c d => { s with sum := fun x => if x = c then s.sum d else s.sum x }

/-- The state after a schedule; body 0 is constructed with the neutral element (lines 48-53, 119-121). -/
def run (f : α → α → α) (z : α) (a b : Nat) (mem : Nat → α) (steps : List ScanStep) : ScanSt α :=
  steps.foldl (step f z a b) { mem := mem, sum := fun _ => z }

/-- parallel_prefix_sum.h:84-92 -/
def sequential (f : α → α → α) (z : α) (a b n : Nat) (mem : Nat → α) : Nat → α :=
  (finLoop f a b 0 n (mem, z)).1

/-- `parallel_prefix_sum`, lines 94-107: sequential below 2^16 elements. -/
def parallelPrefixSum (f : α → α → α) (z : α) (a b n : Nat) (mem : Nat → α)
    (steps : List ScanStep) : Nat → α :=
  if n < 2 ^ 16 then sequential f z a b n mem else (run f z a b mem steps).mem

end ScanSt

/-- What `tbb::parallel_scan` keeps track of (its contract, not part of mt-kahypar): for each body
object the interval of indices it has accumulated, and the set of indices already final-scanned. -/
structure ScanGhost where
  cov : Nat → Nat × Nat
  done : Nat → Bool

namespace ScanGhost

/-- Initially body 0 covers the empty interval at 0, nothing is final-scanned. -/
def init : ScanGhost := { cov := fun _ => (0, 0), done := fun _ => false }

/-- The contract of `tbb::parallel_scan` on a range `[0, n)`: ghost state after a step, and what a
step requires.  A new body starts empty at some position `p`; a body is only ever extended by the
range directly following its interval; a range is final-scanned at most once, by a body that has
accumulated everything to its left, and is never pre-scanned afterwards; `reverse_join` merges the
interval directly to the left. -/
inductive Step (n : Nat) : ScanGhost → ScanStep → ScanGhost → Prop where
  | split {g : ScanGhost} (c p : Nat) :
      Step n g (.split c) { g with cov := fun x => if x = c then (p, p) else g.cov x }
  | pre {g : ScanGhost} {c l r : Nat} : (g.cov c).2 = l → l ≤ r → r ≤ n →
      (∀ i, l ≤ i → i < r → g.done i = false) →
      Step n g (.pre c l r)
        { g with cov := fun x => if x = c then ((g.cov c).1, r) else g.cov x }
  | fin {g : ScanGhost} {c l r : Nat} : g.cov c = (0, l) → l ≤ r → r ≤ n →
      (∀ i, l ≤ i → i < r → g.done i = false) →
      Step n g (.fin c l r)
        { cov := fun x => if x = c then (0, r) else g.cov x
          done := fun i => if l ≤ i ∧ i < r then true else g.done i }
  | join {g : ScanGhost} {right left : Nat} : (g.cov left).2 = (g.cov right).1 →
      Step n g (.join right left)
        { g with cov := fun x => if x = right then ((g.cov left).1, (g.cov right).2) else g.cov x }
  | assign {g : ScanGhost} {c d : Nat} :
      Step n g (.assign c d) { g with cov := fun x => if x = c then g.cov d else g.cov x }

/-- A schedule permitted by the contract. -/
inductive Steps (n : Nat) : ScanGhost → List ScanStep → ScanGhost → Prop where
  | nil (g : ScanGhost) : Steps n g [] g
  | cons {g g' g'' : ScanGhost} {s : ScanStep} {ss : List ScanStep} :
      Step n g s g' → Steps n g' ss g'' → Steps n g (s :: ss) g''

/-- A complete execution: every index is final-scanned and the user's body has accumulated the whole
range (`parallel_scan` assigns the last body to it). -/
def Complete (n : Nat) (g : ScanGhost) : Prop := (∀ i < n, g.done i = true) ∧ g.cov 0 = (0, n)

end ScanGhost

/-- `TBBPrefixSum::operator[]`, lines 131-138 -/
def tbbIndex (mem : Nat → Nat) (i : Nat) : Nat := if i > 0 then mem (i - 1) else 0

/-- `TBBPrefixSum::value`, lines 140-147 -/
def tbbValue (mem : Nat → Nat) (i : Nat) : Nat := if i > 0 then mem i - mem (i - 1) else mem 0

end Verif
