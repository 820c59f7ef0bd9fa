import Verif.Lemmas.Flow4
import Verif.Props.C24
/-!
# C48, C49: flow-based refinement

Executions: `Flow.exec` (Model/FlowScheduler.lean). Any number of searches return arbitrary sequences of moves; the moves are applied under a lock, one
atomic operation at a time; the quotient graph is updated without the lock. Specification: `objective`, `blockWeight`, `pinsIn` (Spec/Hypergraph.lean).
-/
namespace Verif
namespace Flow
open DetLP (Good)
open CSt Rollback PHG

variable {c : Cfg} {m mx : Nat} {limit : Nat → Int}

/-- A state of the partition in which no move is running: some legal history of calls that assigns all nodes, followed by concurrent moves. -/
def Reached (c : Cfg) (m mx : Nat) (s : CSt (Packed × ConnSets)) : Prop :=
  ∃ (os : List PHOp) (cache : Nat → Int) (as : List Act), PHOp.AllLegal c.H c.k (fun _ => none) os ∧
    (∀ v ∈ c.H.nodes, (denseRun c.H m c.k mx os).part v ≠ none) ∧
    CSt.exec denseCon c.H c.k c.o (CSt.begin (denseRun c.H m c.k mx os) cache) as = some s ∧ s.quiescent c.H = true

/-- the same for the partition type for large numbers of blocks -/
def ReachedSparse (c : Cfg) (s : CSt SparsePC) : Prop :=
  ∃ (os : List PHOp) (cache : Nat → Int) (as : List Act), PHOp.AllLegal c.H c.k (fun _ => none) os ∧
    (∀ v ∈ c.H.nodes, (sparseRun c.H c.k os).part v ≠ none) ∧
    CSt.exec sparseCon c.H c.k c.o (CSt.begin (sparseRun c.H c.k os) cache) as = some s ∧ s.quiescent c.H = true

/-- Input: a hypergraph that fits into the data structures and whose total weight fits into 32 bits. -/
structure Input (c : Cfg) (m mx : Nat) : Prop where
  env : Env c m mx
  k : 0 < c.k
  mx0 : 0 < mx
  mx1 : mx + 1 < 2 ^ 32

theorem Reached.good (hI : Input c m mx) {s : CSt (Packed × ConnSets)} (h : Reached c m mx s) : Good (denseLawful m c.k mx) c.H s := by
  obtain ⟨os, cache, as, h1, h2, h3, h4⟩ := h
  have hS := dense_sim c.H m c.k mx hI.env.wf hI.env.fits hI.k hI.mx0 hI.mx1 os h1
  obtain ⟨i1, i2⟩ := conc_inv hI.env.wf hI.env.fits hS h2 h3
  exact ⟨i1, i2, h4⟩

theorem ReachedSparse.good (hI : Env c m mx) {s : CSt SparsePC} (h : ReachedSparse c s) : Good (sparseLawful m c.k mx) c.H s := by
  obtain ⟨os, cache, as, h1, h2, h3, h4⟩ := h
  have hS := sparse_sim c.H m c.k mx hI.wf hI.fits os h1
  obtain ⟨i1, i2⟩ := conc_inv hI.wf hI.fits hS h2 h3
  exact ⟨i1, i2, h4⟩

theorem flow_inv {σ : Type} {C : ConInfo σ} {L : C.Lawful m c.k mx} (hI : Env c m mx) {s : CSt σ} (hG : Good L c.H s)
    (hm : c.mx = maxWeights limit s.wt) {order : List Nat} {as : List FAct} {y : FSt σ} (he : exec C c (start C s order) as = some y) : FInv C c L s y :=
  (FInv.start hG (fun b _ => by rw [hm]; exact le_max_left _ _) order).exec hI he

theorem flow_result {σ : Type} {C : ConInfo σ} {L : C.Lawful m c.k mx} (hI : Env c m mx) {s : CSt σ} (hG : Good L c.H s)
    (hm : c.mx = maxWeights limit s.wt) {order : List Nat} {as : List FAct} {y : FSt σ} (he : exec C c (start C s order) as = some y) (hj : y.job = none) :
    c.H.objective y.s.part c.o = c.H.objective s.part c.o - y.total ∧ 0 ≤ y.total ∧ y.kept = 0 ∧
    (∀ b < c.k, y.s.wt b = c.H.blockWeight y.s.part b ∧ y.pw b = c.H.blockWeight y.s.part b ∧
      c.H.blockWeight y.s.part b ≤ max (c.H.blockWeight s.part b) (limit b)) ∧
    (∀ v ∈ c.H.nodes, ∃ b < c.k, y.s.part v = some b) ∧
    (∀ e ∈ c.H.edges, ∀ b < c.k, C.pinCount y.s.con e b = c.H.pinsIn y.s.part e b) := by
  have h := flow_inv hI hG hm he
  have hF := h.free hj
  refine ⟨hF.obj, h.total, h.kept, fun b hb => ?_, hF.good.inv.assigned, fun e he b hb => ?_⟩
  · have hw := hF.good.weight hI.wf hb
    refine ⟨hw, by rw [hF.wt b hb, hw], ?_⟩
    have := hF.bound b hb
    rw [hm, hw] at this
    unfold maxWeights at this
    rwa [hG.weight hI.wf hb] at this
  · have hS := quiescent_sim hI.wf hF.good.inv hF.good.wt hF.good.quiet
    obtain ⟨T, hR, hT⟩ := hS.con
    rw [← hT e he b hb]; exact L.pinCount_eq hR (hI.fits e he).1 hb

/-- **C48** (result). Whenever no sequence of moves is being applied: the objective decreased by exactly the sum of the reported improvements, which is
not negative; no worsening was kept; the block weights are exact (also the scheduler's copy), and no block is heavier than the maximum of its weight
before the refinement and its limit; every node is assigned and the pin counts are exact. -/
theorem C48_result (hI : Input c m mx) {s : CSt (Packed × ConnSets)} (hs : Reached c m mx s) (hm : c.mx = maxWeights limit s.wt) {order : List Nat}
    {as : List FAct} {y : FSt (Packed × ConnSets)} (he : exec denseCon c (start denseCon s order) as = some y) (hj : y.job = none) :
    c.H.objective y.s.part c.o = c.H.objective s.part c.o - y.total ∧ 0 ≤ y.total ∧ y.kept = 0 ∧
    (∀ b < c.k, y.s.wt b = c.H.blockWeight y.s.part b ∧ y.pw b = c.H.blockWeight y.s.part b ∧
      c.H.blockWeight y.s.part b ≤ max (c.H.blockWeight s.part b) (limit b)) ∧
    (∀ v ∈ c.H.nodes, ∃ b < c.k, y.s.part v = some b) ∧
    (∀ e ∈ c.H.edges, ∀ b < c.k, denseCon.pinCount y.s.con e b = c.H.pinsIn y.s.part e b) :=
  flow_result hI.env (hs.good hI) hm he hj

/-- **C48** (result), partition type for large numbers of blocks. -/
theorem C48_result_sparse (hI : Env c m mx) {s : CSt SparsePC} (hs : ReachedSparse c s) (hm : c.mx = maxWeights limit s.wt) {order : List Nat}
    {as : List FAct} {y : FSt SparsePC} (he : exec sparseCon c (start sparseCon s order) as = some y) (hj : y.job = none) :
    c.H.objective y.s.part c.o = c.H.objective s.part c.o - y.total ∧ 0 ≤ y.total ∧ y.kept = 0 ∧
    (∀ b < c.k, y.s.wt b = c.H.blockWeight y.s.part b ∧ y.pw b = c.H.blockWeight y.s.part b ∧
      c.H.blockWeight y.s.part b ≤ max (c.H.blockWeight s.part b) (limit b)) ∧
    (∀ v ∈ c.H.nodes, ∃ b < c.k, y.s.part v = some b) ∧
    (∀ e ∈ c.H.edges, ∀ b < c.k, sparseCon.pinCount y.s.con e b = c.H.pinsIn y.s.part e b) :=
  flow_result hI (hs.good hI) hm he hj

/-- **C48** (one search). A search that returns the moves `ms` either leaves the partition as it was, or exactly the moves `ms` are applied and the objective
does not get worse. `as` are the steps until the call ends; other searches update the quotient graph in the meantime. -/
theorem C48_one_search (hI : Input c m mx) {s : CSt (Packed × ConnSets)} (hs : Reached c m mx s) (hm : c.mx = maxWeights limit s.wt) {order : List Nat}
    {bs as : List FAct} {x y : FSt (Packed × ConnSets)} {t : Nat} {ms : List (Nat × Nat)} (hx : exec denseCon c (start denseCon s order) bs = some x)
    (ha : ∀ t' ms', FAct.begin t' ms' ∉ as) (he : exec denseCon c x (.begin t ms :: as) = some y) (hj : y.job = none) :
    y.s.part = x.s.part ∨ ((∀ p ∈ ms, y.s.part p.1 = some p.2) ∧ (∀ v, v ∉ ms.map Prod.fst → y.s.part v = x.s.part v) ∧
      c.H.objective y.s.part c.o ≤ c.H.objective x.s.part c.o) := by
  refine call_spec hI.env (flow_inv hI.env (hs.good hI) hm hx) (fun a haa => ?_) he hj
  cases a with
  | begin t' ms' => exact absurd haa (ha t' ms')
  | run => rfl
  | read t' => rfl

/-- **C48** (not stuck). The search that holds the lock can always make a step. -/
theorem C48_not_stuck (hI : Input c m mx) {s : CSt (Packed × ConnSets)} (hs : Reached c m mx s) (hm : c.mx = maxWeights limit s.wt) {order : List Nat}
    {as : List FAct} {y : FSt (Packed × ConnSets)} (he : exec denseCon c (start denseCon s order) as = some y) (hj : y.job ≠ none) :
    ∃ z, step denseCon c y .run = some z := by
  have h := flow_inv hI.env (hs.good hI) hm he
  have hL : Live y := exec_induct (Q := Live) (fun _ _ _ q st => q.step st) as (by intro j u hj; simp [start] at hj) he
  cases hjj : y.job with
  | none => exact absurd hjj hj
  | some j =>
    obtain ⟨s0, hJ, _⟩ := h.busy j hjj
    exact Option.ne_none_iff_exists'.1 (not_stuck hI.env hjj hJ hL)

/-- **C48** (gain cache). If the gain cache was initialised before the refinement (any distribution of the work) and the penalty terms of the moved nodes
are recomputed afterwards, then all cached gains are exact. -/
theorem C48_gain_cache (hI : Input c m mx) {os : List PHOp} (hl : PHOp.AllLegal c.H c.k (fun _ => none) os)
    (hall : ∀ v ∈ c.H.nodes, (denseRun c.H m c.k mx os).part v ≠ none)
    {threads : List Nat} (hn : threads.Nodup) {tasks : List InitTask} (ht : ∀ t ∈ tasks, t.Legal c.H threads)
    (hc : ∀ u ∈ c.H.nodes, ∃ t ∈ tasks, t.node = u) (mem : Nat → Int)
    (hm : c.mx = maxWeights limit (denseRun c.H m c.k mx os).wt) {order : List Nat} {as : List FAct} {y : FSt (Packed × ConnSets)} {R : List Nat}
    {s : CSt (Packed × ConnSets)}
    (he : exec denseCon c (start denseCon (CSt.begin (denseRun c.H m c.k mx os) (denseCache c.H m c.k mx os c.o threads tasks mem)) order) as = some y)
    (hj : y.job = none) (hR : ∀ v ∈ c.H.nodes, y.s.moved v = true → v ∈ R) (hs : CSt.exec denseCon c.H c.k c.o y.s (R.map Act.recompute) = some s)
    {v src dst : Nat} (hv : v ∈ c.H.nodes) (hp : s.part v = some src) (hne : src ≠ dst) (hd : dst < c.k) :
    cacheGain c.k s.cache v dst = c.H.objective s.part c.o - c.H.objective (s.part.put v dst) c.o := by
  have hS := dense_sim c.H m c.k mx hI.env.wf hI.env.fits hI.k hI.mx0 hI.mx1 os hl
  have hr : Reached c m mx (CSt.begin (denseRun c.H m c.k mx os) (denseCache c.H m c.k mx os c.o threads tasks mem)) :=
    ⟨os, _, [], hl, hall, rfl, (quiescent_iff _).2 (fun _ _ => rfl)⟩
  have h := flow_inv hI.env (hr.good hI) hm he
  obtain ⟨bs, hb⟩ := h.hist
  obtain ⟨r1, r2, r3, r4⟩ := recompute_all R (h.free hj).good.quiet hs
  have hex := cacheExact_of hI.env.wf hI.env.fits hS hall c.o hn ht hc mem
  obtain ⟨hI', hC⟩ := conc_cacheInv hI.env.wf hI.env.fits hS hall hex (as := bs ++ R.map Act.recompute) (s := s) (by
    rw [exec_append]
    have hb' : CSt.exec denseCon c.H c.k c.o (CSt.begin (denseRun c.H m c.k mx os) (initCache denseCon c.H c.k c.o (denseRun c.H m c.k mx os) threads tasks mem).1) bs = some y.s := hb
    rw [hb']; exact hs)
  refine cacheGain_exact hI.env.wf hI' hC r1 hv ?_ hp hne hd
  by_cases hmv : y.s.moved v = true
  · exact r2 v (hR v hv hmv)
  · exact r3 v (by simpa using hmv)

/-- **C49** (completeness). If no sequence of moves was taken back: when all searches have finished, every hyperedge with pins in the blocks `i < j` is in
the list of hyperedges of that pair, for every interleaving of the searches. -/
theorem C49_complete (hI : Input c m mx) {s : CSt (Packed × ConnSets)} (hs : Reached c m mx s) (hm : c.mx = maxWeights limit s.wt) {order : List Nat}
    (ho : ∀ e ∈ c.H.edges, e ∈ order) {as : List FAct} {y : FSt (Packed × ConnSets)} (he : exec denseCon c (start denseCon s order) as = some y)
    (hj : y.job = none) (hp : ∀ t, y.pend t = []) (hr : y.reverted = false) {e i j : Nat} (hed : e ∈ c.H.edges) (hij : i < j) (hjk : j < c.k)
    (h1 : ∃ u ∈ c.H.pins e, y.s.part u = some i) (h2 : ∃ u ∈ c.H.pins e, y.s.part u = some j) : e ∈ y.qg i j := by
  have hG := hs.good hI
  have h := flow_inv hI.env hG hm he
  have hc := cov_exec hI.env hG (FInv.start hG (fun b _ => by rw [hm]; exact le_max_left _ _) order) (fun _ => cov_start hI.env.fits hG ho) he hr
  exact cov_done hI.env (h.free hj).good hc hj hp hed (by omega) hjk hij h1 h2

/-! ### Concrete executions

Hyperedges {0, 1, 2} (weight 1), {2, 3} (weight 5), {0, 4} (weight 5); node 0 and 4 in block 0, 1 and 2 in block 1, 3 in block 2. -/

def flHG : HG where
  nodes := [0, 1, 2, 3, 4]
  edges := [0, 1, 2]
  pins := fun e => if e = 0 then [0, 1, 2] else if e = 1 then [2, 3] else if e = 2 then [0, 4] else []
  inc := fun v => if v = 0 then [0, 2] else if v = 1 then [0] else if v = 2 then [0, 1] else if v = 3 then [1] else if v = 4 then [2] else []
  nw := fun _ => 1
  ew := fun e => if e = 0 then 1 else 5

theorem flHG_wf : flHG.WF where
  nodes_nodup := by decide
  edges_nodup := by decide
  pins_mem := by decide
  pins_nodup := by decide
  inc_nodup := by decide
  inc_iff := by
    intro v hv e
    simp only [flHG, List.mem_cons, List.not_mem_nil, or_false] at hv
    rcases hv with rfl | rfl | rfl | rfl | rfl <;> by_cases h0 : e = 0 <;> by_cases h1 : e = 1 <;>
      by_cases h2 : e = 2 <;> simp [flHG, h0, h1, h2]

def flOs : List PHOp :=
  [.build (fun v => if v = 0 ∨ v = 4 then 0 else if v = 3 then 2 else 1) [3, 1, 0, 2, 4] (fun _ => [[2, 3], [0, 1, 4]]) [1, 0, 2]]

theorem flOs_legal : PHOp.AllLegal flHG 3 (fun _ => none) flOs :=
  ⟨⟨by decide, by decide, fun b _ => (by decide : [2, 3, 0, 1, 4].Perm [0, 1, 2, 3, 4]), by decide⟩, trivial⟩

def flS : CSt (Packed × ConnSets) := CSt.begin (denseRun flHG 3 3 3 flOs) (fun _ => 0)

def flCfg : Cfg := ⟨flHG, 3, .km1, maxWeights (fun _ => 4) flS.wt⟩

theorem flInput : Input flCfg 3 3 where
  env := ⟨flHG_wf, by intro e he; revert e; decide, by decide, by decide⟩
  k := by decide
  mx0 := by decide
  mx1 := by decide

theorem flReached : Reached flCfg 3 3 flS := ⟨flOs, fun _ => 0, [], flOs_legal, by decide, rfl, by decide⟩

/-- Search 0 moves node 2 to block 2 and then reads the blocks of the hyperedges. -/
def flRun1 : List FAct := .begin 0 [(2, 2)] :: List.replicate 20 .run ++ List.replicate 4 (.read 0)

/-- Search 0 moves node 2 to block 2; search 1 moves node 0 to block 1, which makes the objective worse; while it is still moved, search 0 reads the blocks
of its hyperedges; search 1 takes its move back. -/
def flRun2 : List FAct :=
  .begin 0 [(2, 2)] :: List.replicate 20 .run ++ .begin 1 [(0, 1)] :: List.replicate 8 .run ++ List.replicate 4 (.read 0) ++ List.replicate 32 .run

/-- summary of the final state -/
def flSum (y : FSt (Packed × ConnSets)) : Bool × List (List (Nat × Nat × Nat)) × Int × Bool × List (Option Nat) × List (List Nat) :=
  (y.job.isNone, [y.pend 0, y.pend 1], y.total, y.reverted, [0, 1, 2, 3, 4].map y.s.part, [y.qg 0 1, y.qg 0 2, y.qg 1 2])

set_option synthInstance.maxSize 1000 in
theorem flRun1_sum : (exec denseCon flCfg (start denseCon flS [1, 0, 2]) flRun1).map flSum =
    some (true, [[], []], 4, false, [some 0, some 1, some 2, some 2, some 0], [[0], [0], [1, 0]]) := by decide +kernel

set_option synthInstance.maxSize 1000 in
theorem flRun2_sum : (exec denseCon flCfg (start denseCon flS [1, 0, 2]) flRun2).map flSum =
    some (true, [[], []], 4, true, [some 0, some 1, some 2, some 2, some 0], [[0], [], [1, 0]]) := by decide +kernel

/-- the hypotheses of the theorems are met: the first execution improves the objective by 4, and hyperedge 0 is entered into the list of the new pair -/
example : ∃ y, exec denseCon flCfg (start denseCon flS [1, 0, 2]) flRun1 = some y ∧ y.job = none ∧ y.total = 4 ∧ y.reverted = false ∧
    y.s.part 2 = some 2 ∧ 0 ∈ y.qg 0 2 ∧ flHG.objective y.s.part .km1 = flHG.objective flS.part .km1 - 4 := by
  have h := flRun1_sum
  cases hy : exec denseCon flCfg (start denseCon flS [1, 0, 2]) flRun1 with
  | none => rw [hy] at h; simp at h
  | some y =>
    rw [hy] at h
    simp only [Option.map_some, flSum, Option.some.injEq, Prod.mk.injEq, List.map_cons, List.cons.injEq] at h
    obtain ⟨h1, _, h3, h4, ⟨p0, p1, p2, _⟩, _, q2, _⟩ := h
    have hj : y.job = none := by simpa using h1
    have := (C48_result flInput flReached rfl hy hj).1
    rw [h3] at this
    exact ⟨y, rfl, hj, h3, h4, p2, by rw [q2]; decide, this⟩

/-- **C49** (finding). With a move sequence that is taken back, the list can lose a hyperedge for good: in the second execution all searches have finished,
hyperedge 0 has pins in the blocks 0 and 2, but it is not in the list of this pair (nodes 0 and 2 are pins of hyperedge 0). -/
theorem C49_reverted_witness : ∃ y, exec denseCon flCfg (start denseCon flS [1, 0, 2]) flRun2 = some y ∧ y.job = none ∧ y.pend 0 = [] ∧ y.pend 1 = [] ∧
    0 ∈ flHG.pins 0 ∧ 2 ∈ flHG.pins 0 ∧ y.s.part 0 = some 0 ∧ y.s.part 2 = some 2 ∧ 0 ∉ y.qg 0 2 := by
  have h := flRun2_sum
  cases hy : exec denseCon flCfg (start denseCon flS [1, 0, 2]) flRun2 with
  | none => rw [hy] at h; simp at h
  | some y =>
    rw [hy] at h
    simp only [Option.map_some, flSum, Option.some.injEq, Prod.mk.injEq, List.map_cons, List.cons.injEq] at h
    obtain ⟨h1, ⟨e0, e1, _⟩, h3, h4, ⟨p0, p1, p2, _⟩, _, q2, _⟩ := h
    exact ⟨y, rfl, by simpa using h1, e0, e1, by decide, by decide, p0, p2, by rw [q2]; simp⟩

end Flow
end Verif
