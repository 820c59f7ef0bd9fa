import Verif.Model.GainComputation
import Verif.Model.DetLP
/-!
# Model: deterministic rebalancer

Source: `mt-kahypar/partition/refinement/rebalancing/deterministic_rebalancer.{h,cpp}`, for hypergraphs and the objectives cut, km1 and soed.

Not modelled: the variant for graphs (`changeNodePartNoSync`), the Steiner tree metric, 32-bit overflow.
-/
namespace Verif
namespace DReb
open DetLP (Mv)
open GainComp (Scratch)

/-- Input and configuration. Floating point computations are arbitrary functions. -/
structure Cfg where
  H : HG
  k : Nat
  o : Metrics.Obj
  /-- `max_part_weights` -/
  maxw : Nat → Int
  /-- `isFixed` -/
  fixed : Nat → Bool
  /-- `hn_weight <= allowed_weight` (lines 221-223) for a block, its weight and the weight of the node -/
  light : Nat → Int → Int → Bool
  /-- `deadzoneForPart` (lines 227-231) -/
  dead : Nat → Int
  /-- `transformGain` (lines 53-61) for gain and node weight. The result is a 32-bit floating point number; it is only compared, an integer is the rank of its value. -/
  prio : Int → Int → Int
  /-- `det_max_rounds` -/
  detMaxRounds : Nat

/-- `max_rounds` (line 78) -/
def Cfg.maxRounds (c : Cfg) : Nat := if c.detMaxRounds = 0 then 30 else min 30 c.detMaxRounds

/-- `isValidTarget` (lines 234-238) -/
def valid (c : Cfg) (wt : Nat → Int) (b : Nat) (w : Int) : Bool := decide (wt b < c.dead b) && decide (wt b + w ≤ c.maxw b)

/-- the loop over the rating map (lines 119-128): `best_target` and `best_gain` -/
def pick (c : Cfg) (wt : Nat → Int) (w iso : Int) (l : List (Nat × Int)) (r : Option Nat × Int) : Option Nat × Int :=
  l.foldl (fun r x => if iso - x.2 ≤ r.2 ∧ valid c wt x.1 w = true then (some x.1, iso - x.2) else r) r

/-- the blocks in the order of the loop over the non-adjacent blocks (lines 135-148) -/
def cyclic (k u : Nat) : List Nat := List.iterate (fun b => if b + 1 = k then 0 else b + 1) (u % k) k

/-- the second half of `computeGainAndTargetPart` (lines 117-151): target block and priority -/
def targetOf (c : Cfg) (wt : Nat → Int) (s : Scratch) (u : Nat) : Option Nat × Int :=
  let w := c.H.nw u
  let r := pick c wt w s.iso s.tmp.toList (none, s.iso)
  let b := match r.1 with
    | some b => some b
    | none => (cyclic c.k u).find? (fun b => valid c wt b w && !s.tmp.contains b)
  (b, c.prio r.2 w)

variable {σ : Type}

/-- `_current_imbalance` (line 101) -/
def excess (c : Cfg) (wt : Nat → Int) (b : Nat) : Int := wt b - c.maxw b

/-- State between two rounds: the partition and `_block_has_only_heavy_vertices` -/
structure St (σ : Type) where
  s : CSt σ
  heavy : Nat → Bool

/-- the body of the parallel loop over the nodes (lines 163-172); `scr` is the scratch memory of the executing thread -/
def want (C : ConInfo σ) (c : Cfg) (x : St σ) (scr : Nat → Scratch) (u : Nat) : Option Mv :=
  match x.s.part u with
  | none => none
  | some a =>
    if excess c x.s.wt a > 0 ∧ (c.light a (x.s.wt a) (c.H.nw u) = true ∨ x.heavy a = true) ∧ c.fixed u = false then
      let t := targetOf c x.s.wt (GainComp.precompute c.o C c.H x.s.con a u (scr u)) u
      match t.1 with
      | none => none
      | some b => if a ≠ b then some ⟨u, a, b, t.2⟩ else none
    else none

/-- the moves of block `a` in `_tmp_potential_moves` (in some order); the priority is the entry `gain` of a move -/
def wanted (C : ConInfo σ) (c : Cfg) (x : St σ) (scr : Nat → Scratch) (a : Nat) : List Mv :=
  (c.H.nodes.filterMap (want C c x scr)).filter (fun m => decide (m.src = a))

/-- the order of the moves (lines 45-47) -/
def before (a b : Mv) : Prop := a.gain < b.gain ∨ (a.gain = b.gain ∧ a.node > b.node)

/-- the loop of lines 185-187, starting with `sum`: the moves to execute and the final `sum` -/
def takeMoves (c : Cfg) (ex : Int) : Int → List Mv → List Mv × Int
  | sum, [] => ([], sum)
  | sum, m :: ms =>
    if sum < ex then
      let r := takeMoves c ex (sum + c.H.nw m.node) ms
      (m :: r.1, r.2)
    else ([], sum)

/-- `_block_has_only_heavy_vertices` after the round (lines 176, 189-190, 198-199) -/
def heavyAfter (c : Cfg) (x : St σ) (sorted : Nat → List Mv) (a : Nat) : Bool :=
  if a < c.k then
    if sorted a ≠ [] then !decide ((takeMoves c (excess c x.s.wt a) 0 (sorted a)).2 ≥ excess c x.s.wt a)
    else if excess c x.s.wt a > 0 then true else x.heavy a
  else x.heavy a

/-- all moves that are executed -/
def executed (c : Cfg) (wt : Nat → Int) (sorted : Nat → List Mv) : List Mv :=
  (List.range c.k).flatMap (fun a => (takeMoves c (excess c wt a) 0 (sorted a)).1)

/-- `weakRebalancingRound` (lines 155-202): any order of the moves collected, any schedule of concurrent calls of `changeNodePart` (without weight limit); `g` is the
sum of the values added to the delta. Simplification: the moves of a block start when all blocks have been sorted; sorting reads only data that does not change. -/
def Round (C : ConInfo σ) (c : Cfg) (x x' : St σ) (g : Int) : Prop :=
  ∃ (scr : Nat → Scratch) (sorted : Nat → List Mv) (as : List Act),
    (∀ u, (scr u).tmp.size = 0 ∧ (scr u).iso = 0) ∧
    (∀ a < c.k, (sorted a).Perm (wanted C c x scr a) ∧ (sorted a).Pairwise before) ∧
    (Rollback.startsOf as).Perm ((executed c x.s.wt sorted).map (fun m => Act.start m.node m.dst Rollback.maxHNW)) ∧
    CSt.exec C c.H c.k c.o x.s as = some x'.s ∧ x'.s.quiescent c.H = true ∧
    x'.heavy = heavyAfter c x sorted ∧
    g = ((x'.s.log.drop x.s.log.length).map (attrGain c.o)).sum

/-- `_num_imbalanced_parts` (lines 98-107) -/
def numOver (c : Cfg) (wt : Nat → Int) : Nat := ((List.range c.k).filter (fun b => decide (excess c wt b > 0))).length

/-- the loop of `refineImpl` (lines 79-84) with at most the given number of rounds: final state, `delta` and number of rounds -/
def Loop (C : ConInfo σ) (c : Cfg) : Nat → St σ → St σ → Int → Nat → Prop
  | 0, x, x', g, r => x' = x ∧ g = 0 ∧ r = 0
  | n + 1, x, x', g, r =>
    if numOver c x.s.wt = 0 then x' = x ∧ g = 0 ∧ r = 0
    else ∃ y g1 g2 r2, Round C c x y g1 ∧ Loop C c n y x' g2 r2 ∧ g = g1 + g2 ∧ r = r2 + 1

/-- `refineImpl` (lines 64-95): `best_metrics.quality` changes by `g` -/
def Rebalance (C : ConInfo σ) (c : Cfg) (x x' : St σ) (g : Int) (r : Nat) : Prop := Loop C c c.maxRounds x x' g r

end DReb
end Verif
