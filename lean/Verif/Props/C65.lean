import Verif.Props.C64
/-!
# C65: one iteration of the deterministic Jet refiner

Specification: `Free` (Lemmas/Jet2.lean), `Proposals`, `Earlier`, `afterEarlier`, `Filtered` (Lemmas/Jet3.lean).
-/
namespace Verif
namespace Jet
open DetLP (Mv Good Fit moveAll)
open GainComp CSt PHG
open DReb (Env Input Reached)

variable {c : Cfg} {m mx : Nat}

/-- The step of an iteration before rebalancing has the specified effect: `Φ` is the partition before, `Φ1` after, `locks` and `locks'` the locked nodes. -/
structure Step (c : Cfg) (d : Nat) (locks locks' : Nat → Bool) (Φ Φ1 : Assign) : Prop where
  /-- exactly the moved nodes are locked in the next iteration -/
  locked : ∀ v ∈ c.H.nodes, locks' v = true ↔ Φ1 v ≠ Φ v
  /-- only border nodes that are neither locked nor fixed are moved -/
  free : ∀ v, Φ1 v ≠ Φ v → Free c locks Φ v
  /-- for cut and km1 (and for soed without hyperedges of size two): of a family of proposals exactly those are executed that do not worsen the objective after the
  proposals that come before them -/
  filtered : (c.o = .soed → ∀ e ∈ c.H.edges, (c.H.pins e).length ≠ 2) → ∃ t, Proposals c d locks Φ t ∧ Filtered c Φ t Φ1

/-- **C65** (iteration). Whatever the schedule, an iteration that starts in a state without running moves executes the filtered proposals, which leads to a partition
`Φ1`; it leaves it there if it is balanced, otherwise the deterministic rebalancer (C63) is called for it. The objective value is updated exactly. -/
theorem C65_iteration (hI : Input c.toCfg m mx) {d : Nat} {st st' : St (Packed × ConnSets)} (hx : Reached c.toCfg m mx st.x.s) (h : Round denseCon c d st st') :
    ∃ (s1 : CSt (Packed × ConnSets)), Step c d st.locks st'.locks st.x.s.part s1.part ∧ (Balanced c s1.part → st'.x = ⟨s1, st.x.heavy⟩) ∧
      (¬ Balanced c s1.part → ∃ g r, DReb.Rebalance denseCon c.toCfg ⟨s1, st.x.heavy⟩ st'.x g r) ∧
      st'.cur - st.cur = c.H.objective st'.x.s.part c.o - c.H.objective st.x.s.part c.o := by
  obtain ⟨s1, x2, locks', hC, rfl⟩ := round_core hI.env (hx.good hI) h
  have h1 : ∀ f q, (finish c st x2 locks' f q).x = x2 ∧ (finish c st x2 locks' f q).locks = locks' ∧ (finish c st x2 locks' f q).cur = q := by
    intro f q
    unfold finish
    dsimp only
    split_ifs <;> exact ⟨rfl, rfl, rfl⟩
  obtain ⟨e1, e2, e3⟩ := h1 (if st.isBest = true then blk st.x.s else st.best) (st.cur + (c.H.objective x2.s.part c.o - c.H.objective st.x.s.part c.o))
  rw [e1, e2, e3]
  exact ⟨s1, ⟨hC.locked, hC.free, hC.filtered⟩, hC.still, hC.reb, by ring⟩

/-- **C65** (afterburner). For every proposed move the afterburner computes exactly the change of the objective when the move is executed after the proposals that come
before it: smaller gain value first, ties in favour of the smaller id. -/
theorem C65_afterburner (hI : Input c.toCfg m mx) {s : CSt (Packed × ConnSets)} (hx : Reached c.toCfg m mx s) {gt : GT} (hgt : ∀ v ∈ c.H.nodes, (gt v).2 < c.k)
    (ho : c.o = .soed → ∀ e ∈ c.H.edges, (c.H.pins e).length ≠ 2) {act : List Nat} (hact : ∀ v ∈ act, v ∈ c.H.nodes) {aft : Nat → Int}
    (h : Afterburn denseCon c.H c.o s.con (blk s) gt act aft) {v : Nat} (hv : v ∈ act) {a : Nat} (ha : s.part v = some a) (hne : a ≠ (gt v).2) :
    let Φ : Assign := fun u => if (gt u).1 < (gt v).1 ∨ ((gt u).1 = (gt v).1 ∧ u < v) then some (gt u).2 else s.part u
    aft v = c.H.objective (Φ.put v (gt v).2) c.o - c.H.objective Φ c.o := by
  intro Φ
  have hG := hx.good hI
  have hblk : blk s v = a := by unfold blk; rw [ha]; rfl
  have key := afterburn_spec (k := c.k) hI.env.wf (pinCount_blk hI.env hG) (fun u hu => ⟨(blk_some hG hu).2, hgt u hu⟩) ho hact h hv (by rw [hblk]; exact hne)
  have hpre : ∀ u ∈ c.H.nodes, pre (blk s) gt v u = Φ u := by
    intro u hu
    show (some (if first gt u v then (gt u).2 else blk s u) : Option Nat) = if first gt u v then some (gt u).2 else s.part u
    by_cases hf : first gt u v
    · rw [if_pos hf, if_pos hf]
    · rw [if_neg hf, if_neg hf, (blk_some hG hu).1]
  rw [objective_congr hI.env.wf hpre, objective_congr hI.env.wf (Φ := (pre (blk s) gt v).put v (gt v).2) (Ψ := Φ.put v (gt v).2)
      (fun u hu => by unfold Assign.put; rw [hpre u hu])] at key
  exact key

/-- **C65** (soed). For hyperedges of size two the afterburner does not compute the change for soed: it adds the weight although the objective changes by twice the
weight. -/
theorem C65_soed_two_pins : ∃ (H : HG) (part : Nat → Nat) (gt : GT) (e v : Nat) (w : Int), H.pins e = [v, v + 1] ∧ H.ew e = w ∧ 0 < w ∧ gt (v + 1) = (0, part (v + 1)) ∧
    twoPins part gt w (H.pins e) = [(v, w)] ∧
    H.term (Assign.put (fun u => some (part u)) v (gt v).2) e .soed - H.term (fun u => some (part u)) e .soed = 2 * w := by
  refine ⟨rbHG, fun _ => 0, fun u => if u = 0 then (-1, 1) else (0, 0), 0, 0, 1, by decide +kernel, by decide +kernel, by decide, by decide, by decide +kernel, by decide +kernel⟩

/-! ### A concrete case: the iteration of C64 -/

/-- The iterations from the blocks {0, 2}, {1, 3} meet the hypotheses (one of them is executed in `jetRun`). -/
theorem jetIter {st' : St (Packed × ConnSets)} (h : Round denseCon jetCfg 0 (entry (initial jetCfg DReb.rebStart ⟨3, 0⟩ (fun _ => 0) (fun _ => false))) st') :
    ∃ (s1 : CSt (Packed × ConnSets)), Step jetCfg 0 (fun _ => false) st'.locks DReb.rebStart.s.part s1.part := by
  obtain ⟨s1, h1, _⟩ := C65_iteration jetInput jetReached h
  exact ⟨s1, h1⟩

theorem jetRoundExists : ∃ st', Round denseCon jetCfg 0 (entry (initial jetCfg DReb.rebStart ⟨3, 0⟩ (fun _ => 0) (fun _ => false))) st' :=
  round_exists jetInput.env 0 (jetReached.good jetInput)

/-- the afterburner's value for node 0 is 1: after the exchange of 1 and 2, moving 0 away from 1 would cut an edge -/
example : jetAft 0 = rbHG.objective (Assign.put (fun u => if u = 0 then some 0 else some (jetGt u).2) 0 1) .km1 -
    rbHG.objective (fun u => if u = 0 then some 0 else some (jetGt u).2) .km1 := by decide +kernel

end Jet
end Verif
