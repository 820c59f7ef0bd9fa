import Verif.Lemmas.Jet4
/-!
# C64: deterministic Jet refiner

`Refine C c x q x' q' ret`: a call of the refiner (Model/Jet.lean) in state `x` with the metrics `q` can end in state `x'` with the metrics `q'` and the returned
value `ret`, for some schedule of all parallel loops, concurrent moves and atomic additions, and any floating point computations. Specification: `objective`,
`blockWeight` (Spec/Hypergraph.lean), `Balanced`, `imbOf` (Lemmas/Jet2.lean) and `Result` (Lemmas/Jet4.lean).
-/
namespace Verif
namespace Jet
open DetLP (Mv Good Fit moveAll)
open GainComp CSt PHG
open DReb (Env Input Reached)

variable {c : Cfg} {m mx : Nat} {x x' y y' : DReb.St (Packed × ConnSets)} {q q' q1 : Met} {ret ret' : Bool}

theorem refine_inv (hI : Input c.toCfg m mx) (hx : Reached c.toCfg m mx x.s) (hq : q.q = c.H.objective x.s.part c.o) (hi : q.imb = imbOf c x.s.part)
    (h : Refine denseCon c x q x' q' ret) :
    ∃ st, Inv (denseLawful m c.k mx) x.s.part st ∧ st.isBest = true ∧ x' = st.x ∧ q' = st.bestM ∧ ret = decide (st.bestM.q < q.q) := by
  obtain ⟨old, locks, st, h1, h2, h3, h4⟩ := h
  obtain ⟨r1, r2⟩ := dyn_inv hI.env _ (initial_inv hI.env (hx.good hI) hq hi old locks) rfl h1
  exact ⟨st, r1, r2, h2, h3, h4⟩

/-- **C64** (result). The final partition is the given one, or it is better: if the given partition was balanced, the final one is balanced with a smaller objective;
otherwise the final one is balanced or has a smaller imbalance. The final metrics are exact, fixed nodes are not moved, all nodes are in a block, block weights are
exact, and the returned value tells whether the objective decreased. -/
theorem C64_result (hI : Input c.toCfg m mx) (hx : Reached c.toCfg m mx x.s) (hq : q.q = c.H.objective x.s.part c.o) (hi : q.imb = imbOf c x.s.part)
    (h : Refine denseCon c x q x' q' ret) :
    Result c x.s.part x'.s.part ∧ q'.q = c.H.objective x'.s.part c.o ∧ q'.imb = imbOf c x'.s.part ∧ (∀ v, c.fixed v = true → x'.s.part v = x.s.part v) ∧
    (∀ v ∈ c.H.nodes, ∃ b < c.k, x'.s.part v = some b) ∧ (∀ b < c.k, x'.s.wt b = c.H.blockWeight x'.s.part b) ∧
    (ret = true ↔ c.H.objective x'.s.part c.o < c.H.objective x.s.part c.o) := by
  obtain ⟨st, h1, h2, rfl, rfl, h5⟩ := refine_inv hI hx hq hi h
  have hb : bestPart st = st.x.s.part := by unfold bestPart; rw [if_pos h2]
  have e1 := h1.q
  have e2 := h1.imb
  have e3 := h1.prog
  rw [hb] at e1 e2 e3
  refine ⟨e3, e1, e2, h1.fixed, fun v hv => h1.good.inv.assigned v hv, fun b hb' => h1.good.weight hI.env.wf hb', ?_⟩
  rw [h5, decide_eq_true_iff, e1, hq]

/-- **C64** (never worse). If the given partition is balanced, so is the final one, and its objective is not larger. -/
theorem C64_not_worse (hI : Input c.toCfg m mx) (hx : Reached c.toCfg m mx x.s) (hq : q.q = c.H.objective x.s.part c.o) (hi : q.imb = imbOf c x.s.part)
    (h : Refine denseCon c x q x' q' ret) (hb : Balanced c x.s.part) : Balanced c x'.s.part ∧ c.H.objective x'.s.part c.o ≤ c.H.objective x.s.part c.o := by
  rcases (C64_result hI hx hq hi h).1 with h1 | h1 | h1
  · exact ⟨(balanced_congr h1).2 hb, by rw [objective_congr hI.env.wf h1]⟩
  · exact ⟨h1.2.1, by omega⟩
  · exact absurd hb h1.1

/-- **C64** (deterministic). Two calls that start with the same partition, flags and metrics end with the same partition, flags, metrics and returned value, for all
schedules, random numbers, and contents of the memory that is reused. -/
theorem C64_deterministic (hI : Input c.toCfg m mx) (hx : Reached c.toCfg m mx x.s) (hy : Reached c.toCfg m mx y.s) (hp : x.s.part = y.s.part)
    (hh : ∀ i < c.k, x.heavy i = y.heavy i) (hq : q.q = c.H.objective x.s.part c.o) (hi : q.imb = imbOf c x.s.part)
    (h : Refine denseCon c x q x' q' ret) (h' : Refine denseCon c y q y' q1 ret') :
    x'.s.part = y'.s.part ∧ (∀ i < c.k, x'.heavy i = y'.heavy i) ∧ q' = q1 ∧ ret = ret' := by
  obtain ⟨old, locks, st, h1, rfl, rfl, rfl⟩ := h
  obtain ⟨old', locks', st', h1', rfl, rfl, rfl⟩ := h'
  have hP := dyn_det hI.env _ (initial_inv hI.env (hx.good hI) hq hi old locks) (initial_inv hI.env (hy.good hI) (by rw [hq, hp]) (by rw [hi, hp]) old' locks')
    rfl rfl ⟨hp, hh, rfl, ?_⟩ h1 h1'
  · exact ⟨hP.part, hP.heavy, hP.bestM, by rw [hP.bestM]⟩
  · show balanced c x.s.wt = balanced c y.s.wt
    rw [Bool.eq_iff_iff, balanced_iff hI.env.wf (hx.good hI), balanced_iff hI.env.wf (hy.good hI), hp]

/-- **C64** (terminates). No dynamic round runs forever: after the dynamic rounds `ds` there is no infinite sequence of iterations, whatever the schedules. -/
theorem C64_terminates (hI : Input c.toCfg m mx) (hx : Reached c.toCfg m mx x.s) (hq : q.q = c.H.objective x.s.part c.o) (hi : q.imb = imbOf c x.s.part)
    {old : Nat → Nat} {locks : Nat → Bool} {ds : List Nat} {st : St (Packed × ConnSets)} (h : Dyn denseCon c ds (initial c x q old locks) st) (d : Nat) :
    ¬ ∃ f : Nat → St (Packed × ConnSets), f 0 = entry st ∧ ∀ n, (f n).fruitless < c.iters ∧ Round denseCon c d (f n) (f (n + 1)) := by
  rintro ⟨f, h0, hf⟩
  obtain ⟨r1, r2⟩ := dyn_inv hI.env _ (initial_inv hI.env (hx.good hI) hq hi old locks) rfl h
  obtain ⟨e1, e2⟩ := entry_inv r1 r2
  exact rounds_finite hI.env f (by rw [h0]; exact e1) (by rw [h0]; exact e2) hf

/-- **C64** (completes). From every reachable state a call can end. -/
theorem C64_completes (hI : Input c.toCfg m mx) (hx : Reached c.toCfg m mx x.s) (hq : q.q = c.H.objective x.s.part c.o) (hi : q.imb = imbOf c x.s.part) :
    ∃ x' q' ret, Refine denseCon c x q x' q' ret := by
  obtain ⟨st, h⟩ := dyn_exists (C := denseCon) hI.env (List.range c.dyn) (initial_inv hI.env (hx.good hI) hq hi (fun _ => 0) (fun _ => false)) rfl
  exact ⟨_, _, _, _, _, st, h, rfl, rfl, rfl⟩

/-! ### A concrete case

The path 0 - 1 - 2 - 3 with the blocks {0, 2} and {1, 3} (rbHG, Props/C24.lean); node 3 is fixed. The nodes 0, 1, 2 propose to move with the changes -1, -2, -2. In
this order (1, 2, 0) moving 1 and 2 is good, moving 0 afterwards would be bad. -/

def jetCfg : Cfg where
  toCfg := { DReb.rebCfg with maxw := fun _ => 3 }
  largeK := false
  removed := 0
  imb := fun _ => 0
  neg := fun _ _ _ => false
  improves := fun _ _ => false
  iters := 1
  dyn := 1

theorem jetInput : Input jetCfg.toCfg 3 2 where
  env :=
    { wf := rbHG_wf
      fits := by intro e he; revert e; decide
      nw := by decide
      tot := by decide
      ew := by decide }
  k := by decide
  mx0 := by decide
  mx1 := by decide

theorem jetReached : Reached jetCfg.toCfg 3 2 DReb.rebStart.s := ⟨rbOs, fun _ => 0, [], rbOs_legal, by decide, rfl, by decide⟩

def jetGt : GT := fun u => if u ∈ jetCfg.H.nodes then
  propose denseCon jetCfg 0 DReb.rebStart.s (fun _ => false) ⟨fun _ => false, fun _ => 0⟩ ⟨⟨0, fun _ => 0, fun _ => (0, 0)⟩, 0⟩ u else (0, 0)

theorem jetGt_val : jetGt 0 = (-1, 1) ∧ jetGt 1 = (-2, 0) ∧ jetGt 2 = (-2, 1) ∧ jetGt 3 = (0, 1) := by decide +kernel

def jetAdds (e : Nat) : List (Nat × Int) := twoPins (blk DReb.rebStart.s) jetGt (rbHG.ew e) (rbHG.pins e)

def jetAft : Nat → Int := ([0, 1, 2].flatMap jetAdds).foldl (fun f x => SMap.wr f x.1 (f x.1 + x.2)) (fun _ => 0)

theorem jetAft_val : jetAft 0 = 1 ∧ jetAft 1 = -2 ∧ jetAft 2 = 0 := by decide +kernel

theorem jetAfter : Afterburn denseCon rbHG .km1 DReb.rebStart.s.con (blk DReb.rebStart.s) jetGt (active jetCfg DReb.rebStart.s jetGt) jetAft := by
  have ha : active jetCfg DReb.rebStart.s jetGt = [0, 1, 2] := by decide +kernel
  refine ⟨[0, 1, 2], jetAdds, _, by decide, fun e => ?_, fun e he => ?_, List.Perm.refl _, rfl⟩
  · rw [ha]
    constructor
    · intro h
      revert e
      decide
    · rintro ⟨v, hv, he⟩
      have : ∀ v ∈ [0, 1, 2], ∀ e ∈ rbHG.inc v, e ∈ [0, 1, 2] := by decide +kernel
      exact this v hv e he
  · unfold Burn
    have : (rbHG.pins e).length = 2 := by revert e; decide
    rw [if_pos this]
    rfl

theorem jetChosen : chosen jetCfg DReb.rebStart.s jetGt jetAft = [1, 2] := by decide +kernel

/-- The call finds the partition {0, 1}, {2, 3}; the objective is 1 instead of 3. -/
theorem jetRun : ∃ x', Refine denseCon jetCfg DReb.rebStart ⟨3, 0⟩ x' ⟨1, 0⟩ true ∧ x'.s.part 0 = some 0 ∧ x'.s.part 1 = some 0 ∧ x'.s.part 2 = some 1 ∧ x'.s.part 3 = some 1 := by
  have hG := jetReached.good jetInput
  have hM : movesOf DReb.rebStart.s jetGt (chosen jetCfg DReb.rebStart.s jetGt jetAft) = [⟨1, 1, 0, -2⟩, ⟨2, 0, 1, -2⟩] := by decide +kernel
  have hfit : Fit jetCfg.H jetCfg.k DReb.rebStart.s.part [⟨1, 1, 0, -2⟩, ⟨2, 0, 1, -2⟩] := by
    rw [← hM]
    unfold movesOf
    rw [chosen_eq]
    refine moves_fit jetInput.env.wf hG (fun u hu hp => ?_)
    revert u
    decide +kernel
  obtain ⟨s1, g1, hA⟩ := apply_exists jetInput.env hG hfit
  obtain ⟨hG1, hp1, hg1⟩ := apply_spec jetInput.env hG hfit hA
  have e0 : s1.part 0 = some 0 := by rw [hp1]; decide
  have e1 : s1.part 1 = some 0 := by rw [hp1]; decide
  have e2 : s1.part 2 = some 1 := by rw [hp1]; decide
  have e3 : s1.part 3 = some 1 := by rw [hp1]; decide
  have ho : g1 = -2 := by
    rw [hg1, hp1]
    decide +kernel
  have hb0 : rbHG.blockWeight s1.part 0 = 2 := by simp [HG.blockWeight, rbHG, e0, e1, e2, e3]
  have hb1 : rbHG.blockWeight s1.part 1 = 2 := by simp [HG.blockWeight, rbHG, e0, e1, e2, e3]
  have hbal : Balanced jetCfg s1.part := by
    have hw : ∀ b < 2, rbHG.blockWeight s1.part b = 2 := by
      intro b hb
      rcases Nat.lt_or_ge b 1 with h4 | h4
      · have : b = 0 := by omega
        subst this; exact hb0
      · have : b = 1 := by omega
        subst this; exact hb1
    refine ⟨fun b hb => ?_, Or.inr ?_⟩
    · show rbHG.blockWeight s1.part b ≤ 3
      rw [hw b hb]; decide
    · show ((List.range 2).filter (fun b => decide (rbHG.blockWeight s1.part b = 0))).length ≤ 0
      have : (List.range 2).filter (fun b => decide (rbHG.blockWeight s1.part b = 0)) = [] := by
        rw [List.filter_eq_nil_iff]
        intro b hb
        rw [hw b (List.mem_range.1 hb)]
        decide
      rw [this]
      exact Nat.le_refl _
  have hbal' : balanced jetCfg s1.wt = true := (balanced_iff jetInput.env.wf hG1).2 hbal
  have hst0 : balanced jetCfg DReb.rebStart.s.wt = true := by decide +kernel
  refine ⟨⟨s1, fun _ => false⟩, ⟨fun _ => 0, fun _ => false, ⟨⟨s1, fun _ => false⟩, fun u => decide (u ∈ [1, 2]), blk DReb.rebStart.s, 1, ⟨1, 0⟩, true, true, 1⟩, ?_, rfl, rfl, rfl⟩,
    e0, e1, e2, e3⟩
  refine ⟨⟨⟨s1, fun _ => false⟩, fun u => decide (u ∈ [1, 2]), blk DReb.rebStart.s, 1, ⟨1, 0⟩, true, true, 1⟩, _, ?_, ?_, rfl⟩
  · refine Rounds.step _ _ _ (by decide) ?_ (Rounds.done _ (show ¬ ((1 : Nat) < 1) from by decide))
    refine ⟨fun _ => ⟨fun _ => false, fun _ => 0⟩, fun _ => ⟨⟨0, fun _ => 0, fun _ => (0, 0)⟩, 0⟩, jetGt, jetAft, s1, g1, ⟨s1, fun _ => false⟩, 0, fun u n hn => hn, fun u => ⟨rfl, rfl⟩,
      fun u => rfl, jetAfter, ?_, ?_, ?_⟩
    · show Apply denseCon jetCfg DReb.rebStart.s (movesOf DReb.rebStart.s jetGt (chosen jetCfg DReb.rebStart.s jetGt jetAft)) s1 g1
      rw [hM]
      exact hA
    · rw [if_pos hbal']
      exact ⟨rfl, rfl⟩
    · show _ = finish jetCfg _ _ (fun u => decide (u ∈ chosen jetCfg DReb.rebStart.s jetGt jetAft)) _ _
      rw [jetChosen]
      unfold finish
      dsimp only
      rw [hbal', hst0, ho]
      rfl
  · unfold Rollback'
    rw [if_pos rfl]

end Jet
end Verif
