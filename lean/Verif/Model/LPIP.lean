import Verif.Spec.Hypergraph
/-!
# Model: move selection of the label propagation initial partitioner

Modelled from `/repo/mt-kahypar/partition/initial_partitioning/label_propagation_initial_partitioner.cpp` lines 167-262 (`computeMaxGainMoveForUnassignedVertex`,
`computeMaxGainMoveForAssignedVertex`, `findMaxGainMove`) and the `.h` lines 75-82 (`computeMaxGainMove`).

Simplifications: pin counts, connectivities and connectivity sets are those of the current (partial) assignment (C01, C02); a loop over a connectivity set is written
as one update of all its blocks (each occurs once). `fitsIntoBlock` (which uses floating point) is any predicate. Integers do not overflow. The placement of
the seed nodes and the assignment of isolated nodes are not modelled.
-/
namespace Verif
namespace LPIP

variable (H : HG) (Φ : Assign)

/-- `_valid_blocks`, `_tmp_scores`, `internal_weight` -/
structure Acc where
  valid : Nat → Bool
  score : Nat → Int
  internal : Int

/-- `_valid_blocks.set(c, true)` for all `c` in the connectivity set of `e` -/
def mark (e : Nat) (valid : Nat → Bool) : Nat → Bool := fun c => if c ∈ H.blocksOf Φ e then true else valid c

/-- `_tmp_scores[c] += w` for all `c` in the connectivity set of `e` that satisfy `p` -/
def addScore (e : Nat) (p : Nat → Bool) (score : Nat → Int) : Nat → Int :=
  fun c => if c ∈ H.blocksOf Φ e ∧ p c = true then score c + H.ew e else score c

/-- one hyperedge in `computeMaxGainMoveForUnassignedVertex` (lines 177-195) -/
def edgeU (a : Acc) (e : Nat) : Acc :=
  if H.lam Φ e = 1 then
    { valid := mark H Φ e a.valid, score := addScore H Φ e (fun _ => true) a.score, internal := a.internal + H.ew e }
  else { a with valid := mark H Φ e a.valid }

/-- one hyperedge in `computeMaxGainMoveForAssignedVertex` (lines 210-237) -/
def edgeA (src : Nat) (a : Acc) (e : Nat) : Acc :=
  if H.lam Φ e = 1 ∧ H.pinsIn Φ e src > 1 then { a with internal := a.internal + H.ew e }
  else if H.lam Φ e = 2 then
    { a with valid := mark H Φ e a.valid,
             score := addScore H Φ e (fun c => decide (H.pinsIn Φ e src = 1) && decide (H.pinsIn Φ e c > 0)) a.score }
  else { a with valid := mark H Φ e a.valid }

/-- the arrays before the loops -/
def Acc.empty : Acc := ⟨fun _ => false, fun _ => 0, 0⟩

/-- the loops over the incident hyperedges -/
def scan (v : Nat) : Acc :=
  match Φ v with
  | none => (H.inc v).foldl (edgeU H Φ) Acc.empty
  | some src => (H.inc v).foldl (edgeA H Φ src) Acc.empty

/-- `score > best_score`, where `none` stands for `Gain::min()` -/
def better (x : Int) : Option Int → Bool
  | none => true
  | some s => decide (x > s)

/-- one block in `findMaxGainMove` (lines 249-260): `best` is `best_block` and `best_score`; `none` stands for `Gain::min()` -/
def tryBlock (fits : Nat → Bool) (src : Option Nat) (a : Acc) (best : Option Nat × Option Int) (c : Nat) : Option Nat × Option Int :=
  if src ≠ some c ∧ a.valid c = true then
    if fits c = true ∧ better (a.score c - a.internal) best.2 = true then (some c, some (a.score c - a.internal)) else best
  else best

/-- `findMaxGainMove` (lines 243-262) -/
def findMax (k : Nat) (fits : Nat → Bool) (src : Option Nat) (a : Acc) : Option Nat × Option Int :=
  (List.range k).foldl (tryBlock fits src a) (src, if src = none then none else some 0)

/-- `computeMaxGainMove` (`.h` lines 75-82) -/
def computeMaxGainMove (k : Nat) (fits : Nat → Bool) (v : Nat) : Option Nat × Option Int :=
  findMax k fits (Φ v) (scan H Φ v)

end LPIP
end Verif
