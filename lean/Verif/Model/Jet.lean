import Verif.Model.DetRebalancer
import Verif.Model.Balance
/-!
# Model: deterministic Jet refiner

Source: `mt-kahypar/partition/refinement/deterministic/deterministic_jet_refiner.{h,cpp}`, for hypergraphs and the objectives cut, km1 and soed, with the
deterministic rebalancer.

Not modelled: graphs (the functions under `PartitionedHypergraph::is_graph`; see Model/JetGraph.lean), the Steiner tree metric, the gain cache, 32-bit overflow.
-/
namespace Verif
namespace Jet
open DetLP (Mv)
open GainComp (Scratch)
open SMap (wr)

/-- Input and configuration: those of the rebalancer and the entries of `_context.refinement.jet`. Floating point computations are arbitrary functions. -/
structure Cfg extends DReb.Cfg where
  /-- `preset_type == large_k` and `numRemovedHypernodes` (`metrics::isBalanced`) -/
  largeK : Bool
  removed : Nat
  /-- `metrics::imbalance` for the block weights. The result is only compared: the rank of its value among the floating point numbers. -/
  imb : List Int → Nat
  /-- `best_move.gain < std::floor(_negative_gain_factor * isolated_block_gain)` (line 209) in the given dynamic round -/
  neg : Nat → Int → Int → Bool
  /-- `best - current > relative_improvement_threshold * best` (line 174) for the two values -/
  improves : Int → Int → Bool
  /-- `num_iterations` -/
  iters : Nat
  /-- `dynamic_rounds` -/
  dyn : Nat

/-- `_gains_and_target` -/
abbrev GT := Nat → Int × Nat

/-- the order of the afterburner (line 398): does `a` come before `b`? -/
def first (gt : GT) (a b : Nat) : Prop := (gt a).1 < (gt b).1 ∨ ((gt a).1 = (gt b).1 ∧ a < b)

instance (gt : GT) (a b : Nat) : Decidable (first gt a b) := by unfold first; infer_instance

/-- the loop over the two pins (lines 320-329): `a` and `b` -/
def orderTwo (gt : GT) (pins : List Nat) : Option Nat × Option Nat :=
  pins.foldl (fun r p => match r.1 with
    | none => (some p, none)
    | some a => if first gt p a then (some p, some a) else (some a, some p)) (none, none)

/-- `afterburn_two_pins` (lines 316-351): the values added to `_afterburner_gain` -/
def twoPins (part : Nat → Nat) (gt : GT) (w : Int) (pins : List Nat) : List (Nat × Int) :=
  match orderTwo gt pins with
  | (some a, some b) =>
    (if part a ≠ (gt a).2 then
      if part a = part b then [(a, w)] else if (gt a).2 = part b then [(a, -w)] else []
     else []) ++
    (if part b ≠ (gt b).2 then
      if part b = (gt a).2 then [(b, w)] else if (gt b).2 = (gt a).2 then [(b, -w)] else []
     else [])
  | _ => []

/-- sorting two pins (lines 378-383) -/
def swap2 (gt : GT) (a b : Nat) : Nat × Nat := if first gt a b then (a, b) else (b, a)

/-- sorting three pins (lines 384-393) -/
def net3 (gt : GT) (a b c : Nat) : List Nat :=
  let p := swap2 gt a c
  let q := swap2 gt p.1 b
  let r := swap2 gt q.2 p.2
  [q.1, r.1, r.2]

/-- the sorted pins (lines 374-400), with the special cases for few pins -/
def Sorted (gt : GT) (l l' : List Nat) : Prop :=
  match l with
  | [] => l' = []
  | [a] => l' = [a]
  | [a, b] => l' = [(swap2 gt a b).1, (swap2 gt a b).2]
  | [a, b, c] => l' = net3 gt a b c
  | _ => l'.Perm l ∧ l'.Pairwise (first gt)

/-- the scan through the sorted pins (lines 402-415) with the pin counts of the snapshot: the values added -/
def scan (o : Metrics.Obj) (e : Nat) (w : Int) (n : Nat) (part : Nat → Nat) (gt : GT) : (Nat → Nat) → List Nat → List (Nat × Int)
  | _, [] => []
  | pc, v :: vs =>
    let pc1 := wr pc (part v) (pc (part v) - 1)
    let pc2 := wr pc1 (gt v).2 (pc1 (gt v).2 + 1)
    let g := attrGain o ⟨e, part v, (gt v).2, w, n, pc1 (part v), pc2 (gt v).2⟩
    (if g ≠ 0 then [(v, g)] else []) ++ scan o e w n part gt pc2 vs

variable {σ : Type}

/-- `afterburn_edge` (lines 353-416) can add the values `l` -/
def Burn (C : ConInfo σ) (H : HG) (o : Metrics.Obj) (con : σ) (part : Nat → Nat) (gt : GT) (e : Nat) (l : List (Nat × Int)) : Prop :=
  if (H.pins e).length = 2 then l = twoPins part gt (H.ew e) (H.pins e)
  else ∃ so, Sorted gt ((H.pins e).filter (fun v => decide (part v ≠ (gt v).2))) so ∧
    l = scan o e (H.ew e) (H.pins e).length part gt (C.pinCount con e) so

/-- `hypergraphAfterburner` (lines 311-427): the edges in any order, each of them once (`compare_and_set_to_true`), the atomic additions in any order -/
def Afterburn (C : ConInfo σ) (H : HG) (o : Metrics.Obj) (con : σ) (part : Nat → Nat) (gt : GT) (active : List Nat) (aft : Nat → Int) : Prop :=
  ∃ (es : List Nat) (adds : Nat → List (Nat × Int)) (ops : List (Nat × Int)),
    es.Nodup ∧ (∀ e, e ∈ es ↔ ∃ v ∈ active, e ∈ H.inc v) ∧ (∀ e ∈ es, Burn C H o con part gt e (adds e)) ∧
    ops.Perm (es.flatMap adds) ∧ aft = ops.foldl (fun f x => wr f x.1 (f x.1 + x.2)) (fun _ => 0)

/-- `quality` and `imbalance` of `Metrics` -/
structure Met where
  q : Int
  imb : Nat

/-- State: the partition with the state of the rebalancer, `_locks`, `_best_partition`, `best_metrics`, `_current_partition_is_best`, `_was_already_balanced`,
`current_metrics.quality` and `rounds_without_improvement` -/
structure St (σ : Type) where
  x : DReb.St σ
  locks : Nat → Bool
  best : Nat → Nat
  cur : Int
  bestM : Met
  isBest : Bool
  was : Bool
  fruitless : Nat

/-- `partID` -/
def blk (s : CSt σ) (u : Nat) : Nat := (s.part u).getD 0

/-- arguments of `computeMaxGainMoveForScores` (lines 204-207); randomization is disabled (deterministic_jet_refiner.h:82) -/
def args (c : Cfg) : GainComp.Args := ⟨c.k, c.maxw, true, true, false, true⟩

/-- the body of the loop over all nodes in `computeActiveNodesFromGraph` (lines 195-217): `_gains_and_target[u]`; `scr` is the scratch memory of the executing thread -/
def propose (C : ConInfo σ) (c : Cfg) (d : Nat) (s : CSt σ) (locks : Nat → Bool) (ρ : GainComp.Rand) (scr : Scratch) (u : Nat) : Int × Nat :=
  if PHG.isBorderNode C c.H ⟨s.part, s.wt, s.con⟩ u = false ∨ locks u = true ∨ c.fixed u = true then (0, blk s u)
  else
    let sc := GainComp.precompute c.o C c.H s.con (blk s u) u scr
    let m := GainComp.maxMove (args c) ρ (fun b => decide (s.wt b + c.H.nw u ≤ c.maxw b)) (fun x iso => iso - x) sc (blk s u)
    if (m.2 ≤ 0 ∨ c.neg d m.2 sc.iso = true) ∧ m.1 ≠ blk s u then (m.2, m.1) else (0, blk s u)

/-- `_active_nodes`. Simplification: in the order of the nodes (the order has no effect, all loops over them are parallel). -/
def active (c : Cfg) (s : CSt σ) (gt : GT) : List Nat := c.H.nodes.filter (fun u => decide ((gt u).2 ≠ blk s u))

/-- the nodes that are moved (line 126) -/
def chosen (c : Cfg) (s : CSt σ) (gt : GT) (aft : Nat → Int) : List Nat := (active c s gt).filter (fun u => decide (aft u ≤ 0))

/-- their moves -/
def movesOf (s : CSt σ) (gt : GT) (us : List Nat) : List Mv := us.map (fun u => ⟨u, blk s u, (gt u).2, (gt u).1⟩)

/-- concurrent calls of `changeNodePart` without weight limit lead from `s` to `s'`; `g` is the sum of the attributed gains -/
def Apply (C : ConInfo σ) (c : Cfg) (s : CSt σ) (A : List Mv) (s' : CSt σ) (g : Int) : Prop :=
  ∃ as, (Rollback.startsOf as).Perm (A.map (fun m => Act.start m.node m.dst Rollback.maxHNW)) ∧ CSt.exec C c.H c.k c.o s as = some s' ∧
    s'.quiescent c.H = true ∧ g = ((s'.log.drop s.log.length).map (attrGain c.o)).sum

/-- `metrics::isBalanced` -/
def balanced (c : Cfg) (wt : Nat → Int) : Bool := Balance.isBalanced c.k wt ((List.range c.k).map c.maxw) c.largeK c.removed

/-- block weights of a state -/
def weights (c : Cfg) (s : CSt σ) : List Int := (List.range c.k).map s.wt

/-- the end of an iteration (lines 168-182); `x2` is the state after rebalancing, `q` the current quality -/
def finish (c : Cfg) (st : St σ) (x2 : DReb.St σ) (locks : Nat → Bool) (best : Nat → Nat) (q : Int) : St σ :=
  let cur : Met := ⟨q, c.imb (weights c x2.s)⟩
  let b := balanced c x2.s.wt
  if (q < st.bestM.q ∧ st.was = true ∧ b = true) ∨ (st.was = false ∧ cur.imb < st.bestM.imb) then
    ⟨x2, locks, best, q, cur, true, st.was || b, if c.improves st.bestM.q q then 0 else st.fruitless + 1⟩
  else ⟨x2, locks, best, q, st.bestM, false, st.was, st.fruitless + 1⟩

/-- one iteration of the loop in `runJetRounds` (lines 97-183) in dynamic round `d`. The entries of `_gains_and_target` for ids that are not nodes are never read. -/
def Round (C : ConInfo σ) (c : Cfg) (d : Nat) (st st' : St σ) : Prop :=
  ∃ (ρ : Nat → GainComp.Rand) (scr : Nat → Scratch) (gt : GT) (aft : Nat → Int) (s1 : CSt σ) (g1 : Int) (x2 : DReb.St σ) (g2 : Int),
    (∀ u n, 0 < n → (ρ u).pick n < n) ∧ (∀ u, (scr u).tmp.size = 0 ∧ (scr u).iso = 0) ∧
    (∀ u, gt u = if u ∈ c.H.nodes then propose C c d st.x.s st.locks (ρ u) (scr u) u else (0, 0)) ∧
    Afterburn C c.H c.o st.x.s.con (blk st.x.s) gt (active c st.x.s gt) aft ∧
    Apply C c st.x.s (movesOf st.x.s gt (chosen c st.x.s gt aft)) s1 g1 ∧
    (if balanced c s1.wt = true then x2 = ⟨s1, st.x.heavy⟩ ∧ g2 = 0 else ∃ r, DReb.Rebalance C c.toCfg ⟨s1, st.x.heavy⟩ x2 g2 r) ∧
    st' = finish c st x2 (fun u => decide (u ∈ chosen c st.x.s gt aft)) (if st.isBest = true then blk st.x.s else st.best) (st.cur + g1 + g2)

/-- the loop of `runJetRounds` (line 96) -/
inductive Rounds (C : ConInfo σ) (c : Cfg) (d : Nat) : St σ → St σ → Prop
  | done (st : St σ) : ¬ st.fruitless < c.iters → Rounds C c d st st
  | step (st st1 st2 : St σ) : st.fruitless < c.iters → Round C c d st st1 → Rounds C c d st1 st2 → Rounds C c d st st2

/-- `runJetRounds` (lines 90-185) -/
def RunJet (C : ConInfo σ) (c : Cfg) (d : Nat) (st st' : St σ) : Prop :=
  Rounds C c d ⟨st.x, fun _ => false, st.best, st.bestM.q, st.bestM, st.isBest, st.was, 0⟩ st'

/-- lines 74-78 with `rollbackToBestPartition` (lines 243-270) -/
def Rollback' (C : ConInfo σ) (c : Cfg) (st st' : St σ) : Prop :=
  if st.isBest = true then st' = st
  else ∃ s' g, Apply C c st.x.s ((c.H.nodes.filter (fun u => decide (blk st.x.s u ≠ st.best u))).map (fun u => ⟨u, blk st.x.s u, st.best u, 0⟩)) s' g ∧
    st' = ⟨⟨s', st.x.heavy⟩, st.locks, st.best, st.cur, st.bestM, true, st.was, st.fruitless⟩

/-- the loop over the dynamic rounds (lines 61-80) -/
def Dyn (C : ConInfo σ) (c : Cfg) : List Nat → St σ → St σ → Prop
  | [], st, st' => st' = st
  | d :: ds, st, st' => ∃ a b, RunJet C c d st a ∧ Rollback' C c a b ∧ Dyn C c ds b st'

/-- `refineImpl` (lines 46-87), called with the metrics `m`: final state, final metrics and returned value; `old` is the content of `_best_partition` before -/
def Refine (C : ConInfo σ) (c : Cfg) (x : DReb.St σ) (m : Met) (x' : DReb.St σ) (m' : Met) (ret : Bool) : Prop :=
  ∃ (old : Nat → Nat) (locks : Nat → Bool) (st : St σ),
    Dyn C c (List.range c.dyn) ⟨x, locks, old, m.q, m, true, balanced c x.s.wt, 0⟩ st ∧ x' = st.x ∧ m' = st.bestM ∧ ret = decide (st.bestM.q < m.q)

end Jet
end Verif
