import Verif.Lemmas.DetLP7
import Verif.Props.C24
/-!
# C44: deterministic label propagation refinement

`Refine C c l l' imp` : `refineImpl` of the deterministic label propagation, called in the state `l` of partition and
refiner, can end in state `l'` with total improvement `imp`; all interleavings of the concurrent block moves and of the
activation of the neighbours are executions (Model/DetLP.lean). Specification: `objective`, `blockWeight`
(Spec/Hypergraph.lean).
-/
namespace Verif
namespace DetLP
open CSt Rollback PHG

variable {Γ : Type} {c : Cfg Γ} {m mx : Nat}

/-- A state of the partition in which no move is running: some legal history of calls that assigns all nodes, followed
by concurrent moves. -/
def Reached (c : Cfg Γ) (m mx : Nat) (s : CSt (Packed × ConnSets)) : Prop :=
  ∃ (os : List PHOp) (cache : Nat → Int) (as : List Act), PHOp.AllLegal c.H c.k (fun _ => none) os ∧
    (∀ v ∈ c.H.nodes, (denseRun c.H m c.k mx os).part v ≠ none) ∧
    CSt.exec denseCon c.H c.k c.o (CSt.begin (denseRun c.H m c.k mx os) cache) as = some s ∧ s.quiescent c.H = true

/-- Input: a hypergraph that fits into the data structures and whose total weight fits into 32 bits; the target block of
a calculated move is a block; permutations list every node once. -/
structure Input (c : Cfg Γ) (m mx : Nat) : Prop where
  env : Env c m mx
  k : 0 < c.k
  mx0 : 0 < mx
  mx1 : mx + 1 < 2 ^ 32

theorem Reached.good (hI : Input c m mx) {s : CSt (Packed × ConnSets)} (h : Reached c m mx s) : Good (denseLawful m c.k mx) c.H s := by
  obtain ⟨os, cache, as, h1, h2, h3, h4⟩ := h
  have hS := dense_sim c.H m c.k mx hI.env.wf hI.env.fits hI.k hI.mx0 hI.mx1 os h1
  obtain ⟨i1, i2⟩ := conc_inv hI.env.wf hI.env.fits hS h2 h3
  exact ⟨i1, i2, h4⟩

section
variable {l l' r r' : LSt (Packed × ConnSets) Γ} {imp imp' : Int}

/-- **C44** (deterministic). Two calls that start with the same partition, block weights, data of the active nodes and
random state end with the same partition, the same improvement and the same data, for all schedules; so do the
following calls. -/
theorem C44_deterministic (hI : Input c m mx) (hl : Reached c m mx l.x.s) (hl' : Reached c m mx l'.x.s)
    (hp : l.x.s.part = l'.x.s.part) (hw : l.x.s.wt = l'.x.s.wt) (hN : l.x.a.lmN = l'.x.a.lmN) (hE : l.x.a.lmE = l'.x.a.lmE)
    (ha : l.x.a.act.Perm l'.x.a.act) (hr : l.round = l'.round) (hg : l.rng = l'.rng)
    (h : Refine denseCon c l r imp) (h' : Refine denseCon c l' r' imp') :
    r.x.s.part = r'.x.s.part ∧ imp = imp' ∧ r.x.s.wt = r'.x.s.wt ∧ r.x.a.lmN = r'.x.a.lmN ∧ r.x.a.lmE = r'.x.a.lmE ∧
    r.x.a.act.Perm r'.x.a.act ∧ r.round = r'.round ∧ r.rng = r'.rng := by
  obtain ⟨q, e⟩ := iters_det hI.env h (Or.inl rfl) (Or.inl rfl) (hl.good hI) (hl'.good hI) ⟨⟨hp, hw, ⟨hN, hE, ha⟩⟩, hr, hg⟩ h'
  exact ⟨q.x.part, e, q.x.wt, q.x.a.lmN, q.x.a.lmE, q.x.a.act, q.round, q.rng⟩

/-- **C44** (improvement). The reported improvement is the decrease of the objective, and it is never negative. -/
theorem C44_improvement (hI : Input c m mx) (hl : Reached c m mx l.x.s) (h : Refine denseCon c l r imp) :
    imp = c.H.objective l.x.s.part c.o - c.H.objective r.x.s.part c.o ∧ 0 ≤ imp := by
  have := iters_spec hI.env h (Or.inl rfl) (hl.good hI)
  exact ⟨this.gain, this.nonneg⟩

/-- **C44** (balance). A balanced partition stays balanced, and the block weights of the result are exact. -/
theorem C44_balanced (hI : Input c m mx) (hm : ∀ b < c.k, c.maxw b < 2 ^ 31) (hl : Reached c m mx l.x.s) (h : Refine denseCon c l r imp) :
    (∀ b < c.k, r.x.s.wt b = c.H.blockWeight r.x.s.part b) ∧
    ((∀ b < c.k, c.H.blockWeight l.x.s.part b ≤ c.maxw b) → ∀ b < c.k, c.H.blockWeight r.x.s.part b ≤ c.maxw b) := by
  have := iters_spec hI.env h (Or.inl rfl) (hl.good hI)
  exact ⟨fun b hb => this.good.weight hI.env.wf hb, this.bal hm⟩

/-- **C44** (fixed vertices). Fixed vertices stay in their blocks, and every node is assigned to a block. -/
theorem C44_fixed (hI : Input c m mx) (hl : Reached c m mx l.x.s) (h : Refine denseCon c l r imp) :
    (∀ v, c.fixed v = true → r.x.s.part v = l.x.s.part v) ∧ ∀ v ∈ c.H.nodes, ∃ b < c.k, r.x.s.part v = some b := by
  have := iters_spec hI.env h (Or.inl rfl) (hl.good hI)
  refine ⟨fun v hv => this.moved v (fun hh => ?_), this.good.inv.assigned⟩
  rw [hh.1] at hv; cases hv

/-- **C44** (completes). Every call can be completed. -/
theorem C44_completes (hI : Input c m mx) (hl : Reached c m mx l.x.s) : ∃ r imp, Refine denseCon c l r imp :=
  iters_exists hI.env c.iters (Or.inl rfl) (hl.good hI)

end

/-- **C44** (prefix search). For two sequences of moves (positions `b1..e1` and `b2..e2` of the array of cumulative
weights, which ascend) and bounds `lb ≤ 0 ≤ ub`, the parallel recursive search with any cutoff gives the answer of the
sequential search: the unique pair of prefixes whose balance is in the bounds and that is componentwise the longest. -/
theorem C44_prefix_search (co : Nat) {cum : Nat → Int} {lb ub : Int} {b1 e1 b2 e2 : Nat} (h1 : b1 ≤ e1) (h2 : b2 ≤ e2)
    (hc1 : ∀ x y, b1 ≤ x → x ≤ y → y ≤ e1 → prefW cum b1 x ≤ prefW cum b1 y)
    (hc2 : ∀ x y, b2 ≤ x → x ≤ y → y ≤ e2 → prefW cum b2 x ≤ prefW cum b2 y) (hl : lb ≤ 0) (hu : 0 ≤ ub) :
    findRec co cum b1 b2 lb ub b1 e1 b2 e2 = findSeq cum b1 b2 lb ub b1 e1 b2 e2 ∧
    ∃ x y, findSeq cum b1 b2 lb ub b1 e1 b2 e2 = some (x, y) ∧ b1 ≤ x ∧ x ≤ e1 ∧ b2 ≤ y ∧ y ≤ e2 ∧
      lb ≤ prefW cum b1 x - prefW cum b2 y ∧ prefW cum b1 x - prefW cum b2 y ≤ ub ∧
      ∀ x' y', b1 ≤ x' → x' ≤ e1 → b2 ≤ y' → y' ≤ e2 → lb ≤ prefW cum b1 x' - prefW cum b2 y' →
        prefW cum b1 x' - prefW cum b2 y' ≤ ub → x' ≤ x ∧ y' ≤ y := by
  have hs := findSeq_best (cum := cum) (i1 := b1) (i2 := b2) hc1 hc2 hl hu b1 e1 b2 e2 ⟨le_rfl, h1⟩ ⟨le_rfl, h2⟩ le_rfl le_rfl
  have hr := findRec_best co (cum := cum) (i1 := b1) (i2 := b2) hc1 hc2 hl hu b1 e1 b2 e2 ⟨le_rfl, h1⟩ ⟨le_rfl, h2⟩ le_rfl le_rfl
  refine ⟨hr.unique hs, ?_⟩
  cases hf : findSeq cum b1 b2 lb ub b1 e1 b2 e2 with
  | none =>
    rw [hf] at hs
    refine absurd ⟨?_, ?_⟩ (hs b1 b2 le_rfl h1 le_rfl h2)
    · simpa [bal, prefW] using hl
    · simpa [bal, prefW] using hu
  | some p =>
    rw [hf] at hs
    obtain ⟨⟨a1, a2, a3, a4⟩, ⟨f1, f2⟩, hmax⟩ := hs
    exact ⟨p.1, p.2, rfl, a1, a2, a3, a4, f1, f2, fun x' y' g1 g2 g3 g4 g5 g6 => hmax x' y' g1 g2 g3 g4 ⟨g5, g6⟩⟩

/-- the states of the second loop that reverts moves -/
def Loop2Reach (c : Cfg Γ) (sm : List Mv) (t t' : RSt) : Prop := Relation.ReflTransGen (fun a b => a.over ≠ 0 ∧ step2 c sm a = some b) t t'

/-- **C44** (revert loop). If the partition before the moves is balanced, the second loop of
`applyMovesSortedByGainAndRevertUnbalanced` (which wraps around and has no bounds check) never accesses a position outside
of the array, ends, and then no block is overloaded. -/
theorem C44_revert_loop {sm : List Mv} {wt : Nat → Int} (hok : ∀ x ∈ sm, x.src < c.k ∧ x.dst < c.k ∧ x.src ≠ x.dst ∧ 0 ≤ c.H.nw x.node)
    (hb : ∀ b < c.k, wt b ≤ c.maxw b) :
    (∀ t, Loop2Reach c sm { loop1 c sm sm.length (rstart c wt sm) with j := sm.length, last := 0 } t → t.over ≠ 0 → step2 c sm t ≠ none) ∧
    ∃ t, Reverted c wt sm t ∧ (∀ b < c.k, t.pw b ≤ c.maxw b) ∧
      ∀ b, t.pw b = wt b + ((validMoves sm t).map (fun x => delta c x b)).sum := by
  constructor
  · intro t ht
    have hi := loop1_inv (c := c) hok sm.length (rstart c wt sm) (rstart_inv wt sm) (fun _ _ => rfl)
    have : LInv c wt sm t := by
      induction ht with
      | refl => exact ⟨⟨hi.pw, hi.over⟩, Nat.le_refl _, Nat.zero_le _, Or.inl rfl, fun p h1 h2 _ => absurd h1 (by simp; omega)⟩
      | tail _ hs ih =>
        obtain ⟨t1, h1, h2, _⟩ := step2_spec hok hb ih hs.1
        rw [hs.2] at h1
        cases h1
        exact h2
    intro ho hn
    obtain ⟨t1, h1, _⟩ := step2_spec hok hb this ho
    rw [hn] at h1; cases h1
  · obtain ⟨t, ht⟩ := reverted_total (c := c) (wt := wt) (sm := sm) hok
    obtain ⟨r1, r2⟩ := reverted_spec hok ht
    exact ⟨t, ht, r2 hb, fun b => by rw [validMoves_sum]; exact r1.pw b⟩

/-! ### A concrete call

Path 0-1-2-3, block 0 is {0, 2}, block 1 is {1, 3}: node 1 is moved to block 0, the cut decreases from 3 to 1. -/

/-- only node 1 has a move with positive gain -/
def lpCfg : Cfg Unit where
  H := rbHG
  k := 2
  o := .km1
  maxw := fun _ => 3
  fixed := fun v => v == 3
  border := fun _ _ => true
  best := fun Φ u => if u = 1 ∧ Φ 1 = some 1 then (0, 2) else (0, 0)
  useActive := true
  actSize := 10
  iters := 1
  subRounds := 1
  perm := fun γ l => ((l.getD [0, 1, 2, 3], fun b => if b = 0 then 0 else 4), γ)

theorem lpInput : Input lpCfg 3 2 where
  env :=
    { wf := rbHG_wf
      fits := by intro e he; revert e; decide
      nw := by decide
      tot := by decide
      best := by intro Φ u; unfold lpCfg; simp only; split_ifs <;> decide
      permAll := by intro γ; show [0, 1, 2, 3].Nodup; decide
      permAct := by intro γ l h; exact h }
  k := by decide
  mx0 := by decide
  mx1 := by decide

def lpStart : LSt (Packed × ConnSets) Unit :=
  ⟨⟨CSt.begin (denseRun rbHG 3 2 2 rbOs) (fun _ => 0), ⟨fun _ => 0, fun _ => 0, []⟩⟩, 0, ()⟩

theorem lpReached : Reached lpCfg 3 2 lpStart.x.s := ⟨rbOs, fun _ => 0, [], rbOs_legal, by decide, rfl, by decide⟩

theorem findRec_all {co : Nat} {cum : Nat → Int} {i1 i2 : Nat} {lb ub : Int} {b1 e1 b2 e2 : Nat} (h1 : e1 - b1 < co + 2) (h2 : e2 - b2 < co + 2)
    (h : feas cum i1 i2 lb ub e1 e2) : findRec co cum i1 i2 lb ub b1 e1 b2 e2 = some (e1, e2) := by
  rw [findRec, if_pos ⟨h1, h2⟩, findSeq, if_pos h]

theorem lp_chosen {wt : Nat → Int} (h0 : wt 0 = 2) (h1 : wt 1 = 2) : chosen lpCfg [⟨1, 1, 0, 2⟩] wt = [⟨1, 1, 0, 2⟩] := by
  have hp : prefixPair lpCfg [⟨1, 1, 0, 2⟩] wt 0 1 = (0, 1) := by
    unfold prefixPair
    rw [h0, h1]
    simp only
    rw [findRec_all (by decide) (by decide) (by decide)]
    decide
  unfold chosen swapPrefix
  simp [hp]

/-- the call of the example improves the objective by 2 -/
example : ∃ r, Refine denseCon lpCfg lpStart r 2 ∧ r.x.s.part 1 = some 0 := by
  have hG : Good (denseLawful 3 lpCfg.k 2) lpCfg.H lpStart.x.s := lpReached.good lpInput
  have hm : [0, 1, 2, 3].filterMap (want lpCfg lpStart.x.s.part) = [⟨1, 1, 0, 2⟩] := by decide
  have hch : chosen lpCfg [⟨1, 1, 0, 2⟩] lpStart.x.s.wt = [⟨1, 1, 0, 2⟩] := lp_chosen (by decide) (by decide)
  have hF : Fit lpCfg.H lpCfg.k lpStart.x.s.part [⟨1, 1, 0, 2⟩] := by
    rw [← hm]; exact want_fit lpInput.env (by decide)
  obtain ⟨x1, g, ha⟩ := apply_exists (rd := 1) (x := lpStart.x) lpInput.env hG hF
  obtain ⟨a1, a2, a3, _⟩ := apply_spec lpInput.env hG hF.nodup ha
  have hg : g = 2 := by rw [a3, a2]; decide
  subst hg
  have hpre : PrefixStep denseCon lpCfg 1 lpStart.x [⟨1, 1, 0, 2⟩] x1 2 false (others lpCfg [⟨1, 1, 0, 2⟩] lpStart.x.s.wt) :=
    .keep [⟨1, 1, 0, 2⟩] _ x1 2 ⟨List.Perm.refl _, List.pairwise_singleton _ _⟩ (by rw [hch]; exact ha) (List.Perm.refl _) (by decide)
  have hlen : (others lpCfg [⟨1, 1, 0, 2⟩] lpStart.x.s.wt) = [] := by
    have := (chosen_others (c := lpCfg) [⟨1, 1, 0, 2⟩] lpStart.x.s.wt).length_eq
    rw [hch] at this
    simpa using this
  have hsub : SubRound denseCon lpCfg 1 [0, 1, 2, 3] lpStart.x x1 2 false 1 :=
    .one [⟨1, 1, 0, 2⟩] _ x1 2 false (by rw [hm]) (by simp) hpre (by rw [hlen]; simp)
  have hsubs : SubRounds denseCon lpCfg 1 [[0, 1, 2, 3]] lpStart.x x1 2 false 1 :=
    .cons [0, 1, 2, 3] [] lpStart.x x1 x1 2 0 false false 1 0 hsub (.nil x1)
  refine ⟨_, .next 0 1 1 true lpStart ⟨x1, 1, ()⟩ ⟨x1, 1, ()⟩ 2 0 false (.all x1 2 false 1 (Or.inr (Or.inl rfl)) hsubs) (by decide) (.stop _ _ _), ?_⟩
  show x1.s.part 1 = some 0
  rw [a2]; decide

/-! ### What does not hold for overloaded blocks -/

/-- a hypergraph with four nodes, node `v` in block `v` -/
def ovCfg : Cfg Unit := { lpCfg with k := 4, H := rbHG, maxw := fun b => if b = 0 then 0 else 10 }

/-- **C44** (finding). If a block is overloaded, its negative budget is converted to an unsigned 64-bit number before it is
divided by the number of directions that lead to the block: for three directions the result is a large positive bound.
The first step then moves further nodes into the overloaded block (here: block 0 of weight 1 and maximum weight 0 gets
three more nodes). -/
theorem C44_overloaded_grows : ubOf (-1) 3 = 1431655765 ∧
    ∃ (c : Cfg Unit) (sm : List Mv) (wt : Nat → Int), Grouped c.k sm sm ∧ OkMoves c sm ∧ wt 0 > c.maxw 0 ∧ (∀ b, 0 < b → b < c.k → wt b ≤ c.maxw b) ∧
      chosen c sm wt = sm ∧ (sm.map (fun x => delta c x 0)).sum = 3 := by
  refine ⟨by decide, ovCfg, [⟨1, 1, 0, 1⟩, ⟨2, 2, 0, 1⟩, ⟨3, 3, 0, 1⟩], fun _ => 1, ⟨List.Perm.refl _, ?_⟩, by unfold OkMoves; decide, by decide, ?_, ?_, by decide⟩
  · simp [ovCfg, key, before]
  · intro b h _
    simp only [ovCfg]
    rw [if_neg (by omega)]; decide
  · have h1 : prefixPair ovCfg [⟨1, 1, 0, 1⟩, ⟨2, 2, 0, 1⟩, ⟨3, 3, 0, 1⟩] (fun _ => 1) 0 1 = (0, 1) := by
      unfold prefixPair
      simp only
      rw [findRec_all (by decide) (by decide) (by decide)]
      decide
    have h2 : prefixPair ovCfg [⟨1, 1, 0, 1⟩, ⟨2, 2, 0, 1⟩, ⟨3, 3, 0, 1⟩] (fun _ => 1) 0 2 = (0, 2) := by
      unfold prefixPair
      simp only
      rw [findRec_all (by decide) (by decide) (by decide)]
      decide
    have h3 : prefixPair ovCfg [⟨1, 1, 0, 1⟩, ⟨2, 2, 0, 1⟩, ⟨3, 3, 0, 1⟩] (fun _ => 1) 0 3 = (0, 3) := by
      unfold prefixPair
      simp only
      rw [findRec_all (by decide) (by decide) (by decide)]
      decide
    unfold chosen swapPrefix
    simp [h1, h2, h3]

end DetLP
end Verif
