import Verif.Model.GainCache
import Verif.Model.Maps
import Verif.Model.SteinerMst
/-!
# Model: gain computation of the label propagation refiners

Source: `mt-kahypar/partition/refinement/gains/gain_computation_base.h`,
`gains/{km1,cut,soed,steiner_tree}/*_gain_computation.h`.
-/
namespace Verif
namespace GainComp

/-- Thread-local scratch memory: `_tmp_scores.local()` (a `SparseMap`, datastructures/sparse_map.h) and
`_isolated_block_gain.local()` (gain_computation_base.h:66-67, 197-198) -/
structure Scratch where
  tmp : SMap Int
  iso : Int

/-- `tmp_scores[to] += x` for the blocks of a hyperedge other than `src`
(km1_gain_computation.h:81-85, cut_gain_computation.h:79-87, soed_gain_computation.h:92-96) -/
def addScores (src : Nat) (x : Nat → Int) (cs : List Nat) (t : SMap Int) : SMap Int :=
  cs.foldl (fun t b => if src ≠ b then t.modify 0 b (· + x b) else t) t

/-- one iteration of the loop over the incident hyperedges in `precomputeGains`
(km1_gain_computation.h:62-87, cut_gain_computation.h:67-90, soed_gain_computation.h:62-98). Gains are integers
instead of 32-bit values. -/
def edgeScores {σ : Type} (o : Metrics.Obj) (C : ConInfo σ) (H : HG) (con : σ) (src : Nat) (s : Scratch) (e : Nat) : Scratch :=
  let size := (H.pins e).length
  let pc := C.pinCount con e src
  match o with
  | .km1 =>
    { iso := if pc > 1 then s.iso + H.ew e else s.iso, tmp := addScores src (fun _ => H.ew e) (C.connSet con e) s.tmp }
  | .cut =>
    if C.connectivity con e = 1 ∧ size > 1 then { s with iso := s.iso + H.ew e }
    else if C.connectivity con e = 2 ∧ pc = 1 then { s with tmp := addScores src (fun _ => H.ew e) (C.connSet con e) s.tmp }
    else s
  | .soed =>
    if size > 1 then
      { iso := if pc > 1 then s.iso + (if pc = size then 2 else 1) * H.ew e else s.iso,
        tmp := addScores src (fun b => (if C.pinCount con e b = size - 1 then 2 else 1) * H.ew e) (C.connSet con e) s.tmp }
    else s

/-- `precomputeGains` for cut, km1 and soed -/
def precompute {σ : Type} (o : Metrics.Obj) (C : ConInfo σ) (H : HG) (con : σ) (src u : Nat) (s : Scratch) : Scratch :=
  (H.inc u).foldl (edgeScores o C H con src) s

/-- the adjacent blocks of a node (steiner_tree_gain_computation.h:74-87): all blocks or those of the incident
hyperedges. The bitset is iterated in ascending order (C09). -/
def adjacentBlocks {σ : Type} (C : ConInfo σ) (H : HG) (k : Nat) (con : σ) (u : Nat) (all : Bool) : List Nat :=
  (List.range k).filter (fun b => all || (H.inc u).any (fun e => decide (b ∈ C.connSet con e)))

/-- one iteration of the second loop of `precomputeGains` for the Steiner tree metric
(steiner_tree_gain_computation.h:93-118). `dist` is `TargetGraph::distance` of a set of blocks (C25, C39: a function of
the set); the deep copy of the connectivity set is a set of blocks. -/
def edgeScoresSt {σ : Type} (dist : Finset Nat → Int) (C : ConInfo σ) (H : HG) (con : σ) (src : Nat) (adj : List Nat)
    (s : Scratch) (e : Nat) : Scratch :=
  let X := (C.connSet con e).toFinset
  let before := dist X
  let X := if C.pinCount con e src = 1 then X.erase src else X
  { s with tmp := (adj.foldl (fun (r : SMap Int × Finset Nat) b =>
      let w := Steiner.withBlock r.2 b
      (r.1.modify 0 b (· + (dist w.1 - before) * H.ew e), w.2)) (s.tmp, X)).1 }

/-- `precomputeGains` for the Steiner tree metric -/
def precomputeSt {σ : Type} (dist : Finset Nat → Int) (C : ConInfo σ) (H : HG) (k : Nat) (con : σ) (src u : Nat)
    (all : Bool) (s : Scratch) : Scratch :=
  (H.inc u).foldl (edgeScoresSt dist C H con src (adjacentBlocks C H k con u all)) s

/-- arguments of `computeMaxGainMove` besides the node and the random numbers -/
structure Args where
  k : Nat
  /-- `max_part_weights` -/
  maxw : Nat → Int
  /-- `_disable_randomization` -/
  noRandom : Bool
  rebalance : Bool
  /-- `consider_non_adjacent_blocks` -/
  nonAdj : Bool
  /-- `allow_imbalance` -/
  allow : Bool

/-- Random numbers: `coin n` is the result of the `n`-th `flipCoin`, `pick n` that of `getRandomInt(0, n - 1)` -/
structure Rand where
  coin : Nat → Bool
  pick : Nat → Nat

/-- `best_move.to`, `best_move.gain` and the number of coins flipped so far -/
structure Best where
  blk : Nat
  gain : Int
  flips : Nat

/-- `test_and_apply` (gain_computation_base.h:95-110). `feas b` is
`phg.partWeight(b) + hn_weight <= max_part_weights[b]`. -/
def testAndApply (a : Args) (ρ : Rand) (feas : Nat → Bool) (dst : Nat) (score : Int) (noTie : Bool) (m : Best) : Bool × Best :=
  let flip := decide (¬ score < m.gain) && decide (score = m.gain) && !a.noRandom && !noTie
  let better := decide (score < m.gain) || (decide (score = m.gain) && !a.noRandom && (noTie || ρ.coin m.flips))
  let m := { m with flips := if flip then m.flips + 1 else m.flips }
  if better && (a.allow || feas dst) then (true, { m with blk := dst, gain := score }) else (false, m)

/-- the loop over the entries of the rating map (gain_computation_base.h:112-118) -/
def scanScores (a : Args) (ρ : Rand) (feas : Nat → Bool) (gain : Int → Int → Int) (iso : Int) (src : Nat)
    (l : List (Nat × Int)) (m : Best) : Best :=
  l.foldl (fun m x => if src ≠ x.1 then (testAndApply a ρ feas x.1 (gain x.2 iso) false m).2 else m) m

/-- the loop over the non-adjacent blocks (gain_computation_base.h:122-130) -/
def scanOthers (a : Args) (ρ : Rand) (feas : Nat → Bool) (t : SMap Int) (iso : Int) (src : Nat)
    (bs : List Nat) (r : List Nat × Best) : List Nat × Best :=
  bs.foldl (fun r b => if src ≠ b ∧ t.contains b = false then
    let q := testAndApply a ρ feas b iso true r.2
    (if q.1 then r.1 ++ [b] else r.1, q.2) else r) r

/-- `computeMaxGainMoveForScores` (gain_computation_base.h:77-142): target block and gain -/
def maxMove (a : Args) (ρ : Rand) (feas : Nat → Bool) (gain : Int → Int → Int) (s : Scratch) (src : Nat) : Nat × Int :=
  let m := scanScores a ρ feas gain s.iso src s.tmp.toList ⟨src, if a.rebalance then 2147483647 else 0, 0⟩
  if a.nonAdj = true ∧ m.blk = src then
    let r := scanOthers a ρ feas s.tmp s.iso src (List.range a.k) ([], m)
    if r.1.length > 0 then (r.1.getD (ρ.pick r.1.length) 0, s.iso) else (r.2.blk, r.2.gain)
  else (m.blk, m.gain)

/-- `computeMaxGainMove` (gain_computation_base.h:59-75) for cut, km1 and soed: the move and the scratch memory
left behind -/
def computeMaxGainMove {σ : Type} (o : Metrics.Obj) (C : ConInfo σ) (H : HG) (a : Args) (ρ : Rand) (P : PHG σ)
    (s : Scratch) (src u : Nat) : (Nat × Int) × Scratch :=
  let s := precompute o C H P.con src u s
  (maxMove a ρ (fun b => decide (P.wt b + H.nw u ≤ a.maxw b)) (fun x iso => iso - x) s src,
    { tmp := s.tmp.clear, iso := 0 })

/-- the same for the Steiner tree metric -/
def computeMaxGainMoveSt {σ : Type} (dist : Finset Nat → Int) (C : ConInfo σ) (H : HG) (a : Args) (ρ : Rand) (P : PHG σ)
    (s : Scratch) (src u : Nat) : (Nat × Int) × Scratch :=
  let s := precomputeSt dist C H a.k P.con src u a.nonAdj s
  (maxMove a ρ (fun b => decide (P.wt b + H.nw u ≤ a.maxw b)) (fun x _ => x) s src,
    { tmp := s.tmp.clear, iso := 0 })

end GainComp
end Verif
