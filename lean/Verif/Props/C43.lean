import Verif.Lemmas.DetCRun
/-!
# C43: clustering passes of the deterministic coarsener

`Pass c fv L clusters num` : a pass of the deterministic coarsener over the hypergraph and configuration `c` with fixed
vertices `fv`, whose sub-rounds process the groups of nodes `L`, can end with `clusters` (the array handed to the
contraction) and `num_nodes = num`; every interleaving of the accesses of the parallel loops to the shared arrays is
an execution (Model/DetCoarsening.lean). Specification: `labelWeight`, `numClusters` (Spec/Clustering.lean).
-/
namespace Verif
namespace DetC
open SMap (wr)
variable {α : Type} {c : Cfg α} {fv : FVS} {L : List (List Nat)} {clusters clusters' : Nat → Nat} {num num' : Nat}

/-- **C43** (deterministic). Without fixed vertices all schedules of a pass give the same clustering and the same
node count. -/
theorem C43_schedule_independent (hL : L.flatten.Nodup) (hw : ∀ v, 0 ≤ c.nw v) (hf : c.hasFixed = false)
    (h : Pass c fv L clusters num) (h' : Pass c fv L clusters' num') : clusters = clusters' ∧ num = num' := by
  obtain ⟨s, h1, rfl⟩ := h
  obtain ⟨s', h2, rfl⟩ := h'
  obtain ⟨e, hS⟩ := rounds_det hw hf h1 h2 hL (rinv_start c fv _) rfl ⟨rfl, rfl, rfl, rfl, rfl⟩
  exact ⟨hS.cl, e⟩

/-- **C43** (completes). Every pass can be completed. -/
theorem C43_completes (hL : L.flatten.Nodup) (hw : ∀ v, 0 ≤ c.nw v) : ∃ clusters num, Pass c fv L clusters num := by
  obtain ⟨⟨num, s⟩, h⟩ := rounds_exists hw L c.n (start c fv) hL (rinv_start c fv _)
  exact ⟨s.cl, num, s, h, rfl⟩

theorem rinv_suffix {A R : List Nat} {s : DC} (h : RInv c (A ++ R) s) : RInv c R s := by
  refine ⟨h.opp, fun u hu => h.cl u (List.mem_append_right _ hu), fun u hu => h.prop u (List.mem_append_right _ hu),
    fun u hu => h.cw u (List.mem_append_right _ hu), fun v hv hu hp => ?_⟩
  by_cases hA : v ∈ A
  · rw [h.prop v (List.mem_append_left _ hA)] at hu; exact absurd hu hv
  · exact h.stale v (by simp [hA, hv]) (List.mem_append_right _ hu) hp

theorem rounds_rinv (hw : ∀ v, 0 ≤ c.nw v) {x y : Nat × DC} (h : Rounds c L x y) {R : List Nat} (hn : (L.flatten ++ R).Nodup) (hI : RInv c (L.flatten ++ R) x.2) :
    RInv c R y.2 := by
  induction h with
  | nil x => exact hI
  | stop us L num s h => exact rinv_suffix hI
  | round us L num s s' x h hr ht ih =>
    rw [List.flatten_cons, List.append_assoc] at hn hI
    obtain ⟨s2, mv, hrd⟩ := hr.rd hn hw hI
    exact ih (List.nodup_append.1 hn).2.1 (hrd.rinv hn hw hI)

/-- **C43** (in bounds). In every state of every schedule of `approveNodes`, in every sub-round of a pass, the loop
over the nodes of a target (which has no bounds check) does not leave the array of too heavy nodes. -/
theorem C43_in_bounds {us hv : List Nat} {L' : List (List Nat)} {s s1 s2 s3 : DC} (hL : (L ++ us :: L').flatten.Nodup) (hw : ∀ v, 0 ≤ c.nw v)
    (h : Rounds c L (c.n, start c fv) (num, s)) (h1 : Par.For (next1 c) us .start .fin s s1)
    (h2 : if c.swaps then Par.For (next2 c) us .start .fin s1 s2 else s2 = s1)
    (h3 : Par.For (next3 c) us .start .fin { s2 with cnt := 0, fix := [], heavy := [] } s3)
    (hp : hv.Perm s3.heavy) (hs : hv.Pairwise (comp c s3.prop)) {x : Par.PSt DC Pc4}
    (hx : Par.Reach (next4 c hv) (List.range hv.length) .start s3 x) {pos : Nat} (hpos : pos < hv.length) (hne : x.pc pos ≠ .fin) :
    next4 c hv pos (x.pc pos) x.s ≠ none := by
  rw [List.flatten_append, List.flatten_cons] at hL
  have hI := rounds_rinv hw h hL (rinv_start c fv _)
  have hn := (List.nodup_append.1 hL).2.1
  have hP := half_props hn hw hI ⟨h1, h2⟩
  exact (exists4 (List.nodup_append.1 hn).1 hw hI hP (mid_of (List.nodup_append.1 hn).1 hP h3 hp hs)).2 x hx pos hpos hne

/-- **C43** (weight limit). No cluster is heavier than the maximum allowed node weight, except a node that is too heavy
itself and stays alone. -/
theorem C43_weight_limit (hL : L.flatten.Nodup) (hr : ∀ u ∈ L.flatten, u < c.n) (hw : ∀ v, 0 ≤ c.nw v) (h : Pass c fv L clusters num) (t : Nat) :
    labelWeight (List.range c.n) c.nw clusters t ≤ c.maxw ∨ ∀ v, clusters v = t → v = t := by
  classical
  obtain ⟨s, h1, rfl⟩ := h
  obtain ⟨rest, _, _, hB, hW⟩ := rounds_induction (I := fun rest _ s => (∀ u ∈ rest, u < c.n) ∧ Bnd c s ∧ ∀ t, labelWeight (List.range c.n) c.nw s.cl t ≤ s.cw t) hw
    (fun us rest num s s' s2 mv hn hI hJ hrd => ⟨fun u hu => hJ.1 u (List.mem_append_right _ hu), hJ.2.1.step hw hrd, fun t => by
      rw [hrd.labelWeight hn hI hJ.1, hrd.cw]
      have := hJ.2.2 t
      have := hw t
      by_cases hm : mv t
      · rw [if_pos hm]; split <;> omega
      · rw [if_neg hm, if_neg (fun h => hm h.1)]; omega⟩) h1 hL (rinv_start c fv _)
    ⟨hr, Bnd.start c fv, fun t => by
      by_cases ht : t < c.n
      · exact Int.le_of_eq ((Exact.start c fv).cw t ht).symm
      · rw [labelWeight_eq, sum_zero]
        · exact hw t
        · intro v hv
          have : v ≠ t := by rintro rfl; exact ht (List.mem_range.1 hv)
          simp [start, this]⟩
  rcases hB t with h | h
  · exact .inl (Int.le_trans (hW t) h)
  · exact .inr h.2

/-- **C43** (node count). With positive node weights the reported number of nodes is the number of clusters, i.e. the
number of nodes of the contracted hypergraph. -/
theorem C43_node_count (hL : L.flatten.Nodup) (hr : ∀ u ∈ L.flatten, u < c.n) (hw : ∀ v, 0 < c.nw v)
    (hpins : ∀ u < c.n, ∀ e ∈ c.inc u, c.etgt e < c.n ∧ ∀ v ∈ c.pins e, v < c.n) (h : Pass c fv L clusters num) :
    num = numClusters (List.range c.n) clusters := by
  obtain ⟨s, h1, rfl⟩ := h
  obtain ⟨rest, _, _, hE⟩ := rounds_induction (I := fun rest num s => (∀ u ∈ rest, u < c.n) ∧ Exact c num s) (fun v => Int.le_of_lt (hw v))
    (fun us rest num s s' s2 mv hn hI hJ hrd => ⟨fun u hu => hJ.1 u (List.mem_append_right _ hu), hJ.2.step hw hpins hn hI hJ.1 hrd⟩) h1 hL (rinv_start c fv _)
    ⟨hr, Exact.start c fv⟩
  exact hE.num

/-- **C43** (valid clustering). All labels are nodes, and clusters do not mix communities. -/
theorem C43_labels (hL : L.flatten.Nodup) (hr : ∀ u ∈ L.flatten, u < c.n) (hw : ∀ v, 0 ≤ c.nw v)
    (hpins : ∀ u < c.n, ∀ e ∈ c.inc u, c.etgt e < c.n ∧ ∀ v ∈ c.pins e, v < c.n) (h : Pass c fv L clusters num) :
    (∀ v < c.n, clusters v < c.n) ∧ (∀ u v, clusters u = clusters v → c.comm u = c.comm v) ∧ ∀ v, c.en v = false → clusters v = v := by
  obtain ⟨s, h1, rfl⟩ := h
  obtain ⟨rest, _, _, ha, hb, hd⟩ := rounds_induction (I := fun rest _ s => (∀ u ∈ rest, u < c.n) ∧ (∀ v < c.n, s.cl v < c.n) ∧ (∀ v, c.comm (s.cl v) = c.comm v) ∧ ∀ v, c.en v = false → s.cl v = v) hw
    (fun us rest num s s' s2 mv hn hI hJ hrd => ⟨fun u hu => hJ.1 u (List.mem_append_right _ hu), fun v hv => by
      by_cases hm : mv v
      · rw [hrd.cl v hm]
        obtain ⟨e, he, h' | h'⟩ := (hrd.pr.feas (hrd.mvU v hm).1 (hrd.mvU v hm).2).2.2.nb
        · rw [h'.2]; exact hJ.2.1 _ (hpins v hv e he).1
        · obtain ⟨w, hw', e'⟩ := h'.2; rw [e']; exact hJ.2.1 _ ((hpins v hv e he).2 w hw')
      · rw [hrd.clN v hm]; exact hJ.2.1 v hv, fun v => by
      by_cases hm : mv v
      · rw [hrd.cl v hm]; exact (hrd.pr.feas (hrd.mvU v hm).1 (hrd.mvU v hm).2).2.2.comm
      · rw [hrd.clN v hm]; exact hJ.2.2.1 v, fun v hv => by
      by_cases hm : mv v
      · rw [(hrd.pr.feas (hrd.mvU v hm).1 (hrd.mvU v hm).2).2.1] at hv; cases hv
      · rw [hrd.clN v hm]; exact hJ.2.2.2 v hv⟩) h1 hL (rinv_start c fv _)
    ⟨hr, fun v hv => hv, fun _ => rfl, fun _ _ => rfl⟩
  exact ⟨ha, fun u v e => by rw [← hb u, ← hb v, e], hd⟩

/-- **C43** (fixed vertices). For every schedule, vertices that are fixed to different blocks are never in the same
cluster. -/
theorem C43_fixed (hL : L.flatten.Nodup) (hw : ∀ v, 0 ≤ c.nw v) (hf : c.hasFixed = true) (h : Pass c fv L clusters num)
    {u v b b' : Nat} (hu : (fv.data u).block = some b) (hv : (fv.data v).block = some b') (he : clusters u = clusters v) : b = b' := by
  obtain ⟨s, h1, rfl⟩ := h
  obtain ⟨rest, _, _, hb⟩ := rounds_induction
    (I := fun rest _ s => (∀ v, (s.fv.data v).block = (fv.data v).block) ∧ ∀ v, (fv.data v).block ≠ none → (fv.data (s.cl v)).block = (fv.data v).block) hw
    (fun us rest num s s' s2 mv hn hI hJ hrd => ⟨fun v => (hrd.fvB v).trans (hJ.1 v), fun v hv => by
      by_cases hm : mv v
      · rw [hrd.cl v hm]
        have := (hrd.pr.feas (hrd.mvU v hm).1 (hrd.mvU v hm).2).2.2.fixed hf
        have := accept_same this (by rw [hJ.1]; exact hv)
        rwa [hJ.1, hJ.1] at this
      · rw [hrd.clN v hm]; exact hJ.2 v hv⟩) h1 hL (rinv_start c fv _)
    ⟨fun _ => rfl, fun _ _ => rfl⟩
  have h1 := hb u (by simp [hu])
  have h2 := hb v (by simp [hv])
  rw [he, h2, hu, hv] at h1
  exact (Option.some.inj h1).symm

/-! ### Examples: what does not hold -/

/-- graph with five nodes: 2 and 4 are adjacent to 0, 3 is adjacent to 1 -/
def exCfg (hf : Bool) : Cfg Nat where
  n := 5
  nw := fun v => if v = 2 then 2 else 1
  en := fun _ => true
  comm := fun _ => 0
  inc := fun v => match v with | 0 => [0, 1] | 1 => [2] | 2 => [3] | 3 => [4] | 4 => [5] | _ => []
  pins := fun _ => []
  isGraph := true
  etgt := fun e => match e with | 0 => 2 | 1 => 4 | 2 => 3 | 3 => 0 | 4 => 1 | _ => 0
  ignore := 100
  bloom := fun v => v
  score := fun _ => 1
  zero := 0
  add := fun a b => a + b
  ge := fun a b => decide (b ≤ a)
  gt := fun a b => decide (b < a)
  tie := fun _ _ => 0
  maxw := 10
  hasFixed := hf
  maxFixed := fun _ => 100
  mpw := fun _ => 4
  swaps := true
  limit := 0

/-- nodes 0 and 1 are fixed to block 0 -/
def exFv : FVS := { k := 2, total := 2, bw := fun b => if b = 0 then 2 else 0, maxw := fun _ => 4, data := fun v => if v < 2 then { block := some 0, cnt := 1, weight := 1 } else { block := none, cnt := 0, weight := 0 } }

/-- a pass over the example: the hypotheses of the theorems above are met -/
example : ∃ clusters num, Pass (exCfg false) exFv [[0, 1, 2, 3], [4]] clusters num ∧ [[0, 1, 2, 3], [4]].flatten.Nodup ∧ clusters 3 = clusters 1 ∧ num = 2 :=
  ⟨_, _, ⟨_, passRun_sound [([0, 1, 2, 3], [0, 1, 2, 3]), ([4], [4])] (5, start (exCfg false) exFv) (by decide), rfl⟩, by decide, by decide, by decide⟩

/-- **C43** (finding). With fixed vertices the result of a pass depends on the schedule: the threads that enlarge the
fixed vertices of a block in the third loop do not look at the result of `contractWithoutChains`, and which of them
increases the weight of the block depends on their order. -/
theorem C43_fixed_schedule_dependent : ∃ (c : Cfg Nat) (fv : FVS) (L : List (List Nat)) (clusters clusters' : Nat → Nat) (num num' : Nat),
    c.hasFixed = true ∧ L.flatten = List.range c.n ∧ (∀ v, 0 < c.nw v) ∧ Pass c fv L clusters num ∧ Pass c fv L clusters' num' ∧ clusters 4 ≠ clusters' 4 ∧ num ≠ num' := by
  refine ⟨exCfg true, exFv, [[0, 1, 2, 3], [4]], _, _, _, _, rfl, by decide, fun v => ?_,
    ⟨_, passRun_sound [([0, 1, 2, 3], [0, 1, 2, 3]), ([4], [4])] (5, start (exCfg true) exFv) (by decide), rfl⟩,
    ⟨_, passRun_sound [([0, 1, 2, 3], [0, 1, 3, 2]), ([4], [4])] (5, start (exCfg true) exFv) (by decide), rfl⟩, by decide, by decide⟩
  simp only [exCfg]; split <;> decide

/-- path 1 - 0 - 2 whose end 1 has no weight -/
def exZero : Cfg Nat where
  n := 3
  nw := fun v => if v = 1 then 0 else 1
  en := fun _ => true
  comm := fun _ => 0
  inc := fun v => match v with | 0 => [0, 1] | 1 => [2] | 2 => [3] | _ => []
  pins := fun _ => []
  isGraph := true
  etgt := fun e => match e with | 0 => 1 | 1 => 2 | _ => 0
  ignore := 100
  bloom := fun v => v
  score := fun e => match e with | 0 => 1 | 2 => 1 | _ => 2
  zero := 0
  add := fun a b => a + b
  ge := fun a b => decide (b ≤ a)
  gt := fun a b => decide (b < a)
  tie := fun _ _ => 0
  maxw := 10
  hasFixed := false
  maxFixed := fun _ => 100
  mpw := fun _ => 4
  swaps := true
  limit := 0

/-- **C43** (finding). With a node of weight zero the reported number of nodes can be too small: a node that leaves its
cluster although a weightless node has joined it counts as contracted. -/
theorem C43_zero_weight_count : ∃ (c : Cfg Nat) (fv : FVS) (L : List (List Nat)) (clusters : Nat → Nat) (num : Nat),
    (∀ v, 0 ≤ c.nw v) ∧ L.flatten = List.range c.n ∧ Pass c fv L clusters num ∧ num < numClusters (List.range c.n) clusters := by
  refine ⟨exZero, exFv, [[0, 1, 2]], _, _, fun v => ?_, by decide,
    ⟨_, passRun_sound [([0, 1, 2], [0, 1, 2])] (3, start exZero exFv) (by decide), rfl⟩, by decide⟩
  simp only [exZero]; split <;> decide

end DetC
end Verif
