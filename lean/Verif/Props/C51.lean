import Verif.Props.C50
/-!
# C51: contracting a clustering of a graph yields the quotient graph

`com` is any clustering of the nodes (cluster ids below the number of nodes), `s` an arbitrary legal schedule of the
parallel loops, sorts and of the concurrent bucket map, with any degree threshold, number of threads and number
of buckets; `tmp0`, `edge0`, `comm0` are reused or uninitialised memory.
-/
namespace Verif
open SG
open SGraph (Joins between)
open SMap (wr)

section
variable {G : SGraph} {ends : Nat → Nat × Nat} {w : Nat → Int} {com : Nat → Nat} {s : SG.CSched} {tmp0 : Nat → TE}
  {edge0 : Nat → GEdge} {comm0 : Nat → Nat}

/-- `C` with the edges `ends'`, `w'` is the quotient graph of `G` under `cid` -/
structure Quotient (G : SGraph) (ends : Nat → Nat × Nat) (w : Nat → Int) (com cid : Nat → Nat) (C : SGraph)
    (ends' : Nat → Nat × Nat) (w' : Nat → Int) : Prop where
  /-- it is a well-formed adjacency array with positive edge weights -/
  rep : C.Rep ends' w'
  /-- its nodes are the clusters -/
  nodes : C.nodes = List.range C.n
  lt : ∀ v ∈ G.nodes, cid v < C.n
  same : ∀ v ∈ G.nodes, ∀ v' ∈ G.nodes, cid v = cid v' ↔ com v = com v'
  onto : ∀ c < C.n, ∃ v ∈ G.nodes, cid v = c
  /-- a cluster weighs as much as its nodes -/
  nw : ∀ c < C.n, C.nw c = ((G.nodes.filter (fun v => cid v = c)).map G.nw).sum
  total : C.totalWeight = G.totalWeight
  /-- an edge weighs as much as the edges between the two clusters, of which there is at least one -/
  weight : ∀ x' < C.m / 2, w' x' = between (G.m / 2) ends w cid (ends' x').1 (ends' x').2
  origin : ∀ x' < C.m / 2, ∃ x < G.m / 2, Joins ends cid (ends' x').1 (ends' x').2 x
  /-- every edge between different clusters belongs to exactly one coarse edge -/
  covered : ∀ x < G.m / 2, cid (ends x).1 ≠ cid (ends x).2 →
    ∃ x' < C.m / 2, ∀ y' < C.m / 2, Joins ends cid (ends' y').1 (ends' y').2 x ↔ y' = x'
  /-- no parallel edges, neighbours in ascending order -/
  simple : ∀ c < C.n, ((C.inc c).map (fun e => (C.edge e).tgt)).Pairwise (· < ·)

/-- The contracted graph is the quotient graph. -/
theorem C51_quotient (hR : G.Rep ends w) (hcom : ∀ v ∈ G.nodes, com v < G.n) (hl : SG.Legal s G com) :
    ∃ ends' w', Quotient G ends w com (SG.contract G com s tmp0 edge0 comm0).2
      (SG.contract G com s tmp0 edge0 comm0).1 ends' w' ∧
      (∀ Φ : Assign, ((SG.contract G com s tmp0 edge0 comm0).1.view ends' w').cut Φ =
        (G.view ends w).cut (fun v => Φ ((SG.contract G com s tmp0 edge0 comm0).2 v))) ∧
      (∀ (Φ : Assign) (b : Nat), ((SG.contract G com s tmp0 edge0 comm0).1.view ends' w').blockWeight Φ b =
        (G.view ends w).blockWeight (fun v => Φ ((SG.contract G com s tmp0 edge0 comm0).2 v)) b) := by
  obtain ⟨hC, mk, hr⟩ := contract_result (tmp0 := tmp0) (edge0 := edge0) (comm0 := comm0) hR hcom hl
  generalize (SG.contract G com s tmp0 edge0 comm0).2 = cid at hC hr ⊢
  generalize (SG.contract G com s tmp0 edge0 comm0).1 = C at hC hr ⊢
  refine ⟨coarseEnds G ends cid mk, coarseW G ends w cid mk, ⟨hr.rep hR hC, hr.nodes, hC.lt, hC.same, hC.onto,
    fun c _ => hr.nw c, hr.tw, fun _ _ => rfl, ?_, fun x hx hne => hr.represent hR hC hx hne, ?_⟩,
    fun Φ => hr.cut hR hC Φ, fun Φ b => hr.blockWeight hC Φ b _ _⟩
  · intro x' hx'
    have hm := hr.m_eq hR hC
    obtain ⟨h1, _, _⟩ := orig_spec (M := G.m / 2) hr.mk01 (x' := x') (by omega)
    exact ⟨_, h1, joins_self _ _ _⟩
  · intro c hc
    have := hr.inc_edge hc
    have e : (C.inc c).map (fun e => (C.edge e).tgt) = (canon (G.m / 2) C.n ends w cid c).map TE.tgt := by
      have h2 := congrArg (List.map GEdge.tgt) this
      rw [List.map_map, List.map_map] at h2
      exact h2
    rw [e, List.pairwise_map]
    exact canon_sorted (G.m / 2) C.n ends w cid c

/-- Communities of the coarse graph: if every cluster lies within a community, its node has that community. -/
theorem C51_communities (hR : G.Rep ends w) (hcom : ∀ v ∈ G.nodes, com v < G.n) (hl : SG.Legal s G com)
    (hc : ∀ v ∈ G.nodes, ∀ v' ∈ G.nodes, com v = com v' → G.comm v = G.comm v') :
    ∀ v ∈ G.nodes, (SG.contract G com s tmp0 edge0 comm0).1.comm ((SG.contract G com s tmp0 edge0 comm0).2 v) =
      G.comm v := by
  obtain ⟨hC, _⟩ := contract_result (tmp0 := tmp0) (edge0 := edge0) (comm0 := comm0) hR hcom hl
  intro v hv
  show (s.comm.foldl (fun a v => wr a ((SG.contract G com s tmp0 edge0 comm0).2 v) (G.comm v)) comm0) _ = _
  generalize (SG.contract G com s tmp0 edge0 comm0).2 = cid at hC ⊢
  generalize (SG.contract G com s tmp0 edge0 comm0).1 = C at hC ⊢
  have key : ∀ (l : List Nat) (a : Nat → Nat), (∀ x ∈ l, x ∈ G.nodes) → (v ∈ l ∨ a (cid v) = G.comm v) →
      l.foldl (fun a v => wr a (cid v) (G.comm v)) a (cid v) = G.comm v := by
    intro l
    induction l with
    | nil => intro a _ h; simpa using h
    | cons x l ih =>
      intro a hm h
      rw [List.foldl_cons]
      apply ih _ (fun y hy => hm y (List.mem_cons_of_mem _ hy))
      have hx := hm x List.mem_cons_self
      by_cases hxv : cid v = cid x
      · right
        rw [hxv, wr_same]
        exact hc x hx v hv ((hC.same v hv x hx).1 hxv).symm
      · rw [wr_other _ _ hxv]
        rcases h with h | h
        · rcases List.mem_cons.1 h with rfl | h
          · exact absurd rfl hxv
          · exact Or.inl h
        · exact Or.inr h
  exact key s.comm comm0 (fun x hx => hl.comm.mem_iff.1 hx) (Or.inl (hl.comm.mem_iff.2 hv))

/-- The coarse graph does not depend on the schedule: same numbering of the clusters, same weights, same adjacency array
with the same unique edge ids. -/
theorem C51_deterministic {s' : SG.CSched} {tmp0' : Nat → TE} {edge0' : Nat → GEdge} {comm0' : Nat → Nat}
    (hR : G.Rep ends w) (hcom : ∀ v ∈ G.nodes, com v < G.n) (hl : SG.Legal s G com) (hl' : SG.Legal s' G com) :
    let R := SG.contract G com s tmp0 edge0 comm0
    let R' := SG.contract G com s' tmp0' edge0' comm0'
    R.2 = R'.2 ∧ R.1.n = R'.1.n ∧ R.1.m = R'.1.m ∧ R.1.totalWeight = R'.1.totalWeight ∧
    (∀ c < R.1.n, R.1.nw c = R'.1.nw c) ∧ (∀ c ≤ R.1.n, R.1.first c = R'.1.first c) ∧
    ∀ e < R.1.m, R.1.edge e = R'.1.edge e := by
  intro R R'
  have hmap : SG.mapping com s.mark = SG.mapping com s'.mark := by
    funext x
    have h1 := Verif.mapping_spec com s.mark x
    have h2 := Verif.mapping_spec com s'.mark x
    have hiff : (∃ v ∈ s.mark, com v = x) ↔ ∃ v ∈ s'.mark, com v = x := by
      constructor <;> rintro ⟨v, hv, h⟩
      · exact ⟨v, hl'.mark.mem_iff.2 (hl.mark.mem_iff.1 hv), h⟩
      · exact ⟨v, hl.mark.mem_iff.2 (hl'.mark.mem_iff.1 hv), h⟩
    change SG.mapping com s.mark x = _ at h1
    change SG.mapping com s'.mark x = _ at h2
    rw [h1, h2]
    by_cases h : ∃ v ∈ s.mark, com v = x
    · rw [if_pos h, if_pos (hiff.1 h)]
    · rw [if_neg h, if_neg (fun h' => h (hiff.2 h'))]
  have hcid : R.2 = R'.2 := by
    show SG.coarse G com (SG.mapping com s.mark) = SG.coarse G com (SG.mapping com s'.mark)
    rw [hmap]
  have hn : R.1.n = R'.1.n := by
    show psum (SG.mapping com s.mark) G.n = psum (SG.mapping com s'.mark) G.n
    rw [hmap]
  obtain ⟨hC, mk, hr⟩ := contract_result (tmp0 := tmp0) (edge0 := edge0) (comm0 := comm0) hR hcom hl
  obtain ⟨hC', mk', hr'⟩ := contract_result (tmp0 := tmp0') (edge0 := edge0') (comm0 := comm0') hR hcom hl'
  change SG.CoarseSpec G com R.2 R.1.n at hC
  change Result G ends w com R.2 R.1.n mk R.1 at hr
  change Result G ends w com R'.2 R'.1.n mk' R'.1 at hr'
  rw [← hcid, ← hn] at hr'
  have hmk : mk = mk' := by
    funext x; rw [hr.marks, hr'.marks]
  subst hmk
  refine ⟨hcid, hn, by rw [hr.m, hr'.m], by rw [hr.tw, hr'.tw], fun c _ => by rw [hr.nw, hr'.nw],
    fun c hc => by rw [hr.first c hc, hr'.first c hc], ?_⟩
  intro e he
  rw [hr.m] at he
  obtain ⟨c, hc, i, hi, rfl⟩ : ∃ c < R.1.n, ∃ i < (canon (G.m / 2) R.1.n ends w R.2 c).length,
      e = psum (fun c => (canon (G.m / 2) R.1.n ends w R.2 c).length) c + i := by
    change ∃ c < R.1.n, ∃ i < (fun c => (canon (G.m / 2) R.1.n ends w R.2 c).length) c, _
    generalize (fun c => (canon (G.m / 2) R.1.n ends w R.2 c).length) = d at he ⊢
    generalize R.1.n = N at he ⊢
    clear hr hr' hC hC' hn
    induction N with
    | zero => rw [psum_zero] at he; omega
    | succ N ih =>
      by_cases h : e < psum d N
      · obtain ⟨c, hc, i, hi, h⟩ := ih h
        exact ⟨c, by omega, i, hi, h⟩
      · rw [psum_succ] at he
        exact ⟨N, by omega, e - psum d N, by omega, by omega⟩
  have h1 := hr.edges c hc
  have h2 := hr'.edges c hc
  rw [← h2, hr.first c (by omega), hr'.first c (by omega)] at h1
  have h3 := congrArg (fun l => l[i]?) h1
  simp only [rd, List.getElem?_map, List.getElem?_range hi, Option.map_some, Option.some.injEq] at h3
  exact h3

end

/-! ### Coarsening hierarchies -/

/-- a hierarchy of contractions from `G₀` to `G`; `f` maps the nodes of `G₀` to the nodes of `G` -/
inductive Coarsened (G₀ : SGraph) : SGraph → (Nat → Nat) → Prop
  | base : Coarsened G₀ G₀ id
  | step {G : SGraph} {f : Nat → Nat} (com : Nat → Nat) (s : SG.CSched) (tmp0 : Nat → TE) (edge0 : Nat → GEdge)
      (comm0 : Nat → Nat) : Coarsened G₀ G f → (∀ v ∈ G.nodes, com v < G.n) → SG.Legal s G com →
      Coarsened G₀ (SG.contract G com s tmp0 edge0 comm0).1 (fun v => (SG.contract G com s tmp0 edge0 comm0).2 (f v))

/-- Projecting a partition of the coarsest graph to the input graph keeps the cut and all block weights. -/
theorem C51_hierarchy {G₀ G : SGraph} {f : Nat → Nat} {ends : Nat → Nat × Nat} {w : Nat → Int} (hR : G₀.Rep ends w)
    (h : Coarsened G₀ G f) :
    (∀ v ∈ G₀.nodes, f v ∈ G.nodes) ∧ G.totalWeight = G₀.totalWeight ∧
    ∃ ends' w', G.Rep ends' w' ∧
      (∀ Φ : Assign, (G.view ends' w').cut Φ = (G₀.view ends w).cut (fun v => Φ (f v))) ∧
      (∀ (Φ : Assign) (b : Nat), (G.view ends' w').blockWeight Φ b = (G₀.view ends w).blockWeight (fun v => Φ (f v)) b) := by
  induction h with
  | base => exact ⟨fun v hv => hv, rfl, ends, w, hR, fun _ => rfl, fun _ _ => rfl⟩
  | step com s tmp0 edge0 comm0 _ hcom hl ih =>
    obtain ⟨ih0, iht, e1, w1, hR1, hcut, hbw⟩ := ih
    obtain ⟨e2, w2, hQ, hcut2, hbw2⟩ := C51_quotient (tmp0 := tmp0) (edge0 := edge0) (comm0 := comm0) hR1 hcom hl
    refine ⟨fun v hv => ?_, hQ.total.trans iht, e2, w2, hQ.rep, fun Φ => by rw [hcut2, hcut], fun Φ b => by rw [hbw2, hbw]⟩
    rw [hQ.nodes]
    exact List.mem_range.2 (hQ.lt _ (ih0 v hv))

/-! ### Concrete cases -/

/-- insertion sort by target -/
def C51_srt (l : List TE) : List TE := l.insertionSort (fun a b => a.tgt ≤ b.tgt)

theorem C51_srt_ok : IsSort C51_srt := by
  intro l
  haveI : Std.Total (fun a b : TE => a.tgt ≤ b.tgt) := ⟨fun a b => Nat.le_total _ _⟩
  haveI : IsTrans TE (fun a b : TE => a.tgt ≤ b.tgt) := ⟨fun a b c => Nat.le_trans⟩
  exact ⟨List.perm_insertionSort _ _, List.pairwise_insertionSort _ _⟩

/-- schedule visiting `n` nodes and `n'` clusters in descending order; vertices of degree above `thr` use two threads
and two buckets -/
def C51_sched (n n' thr : Nat) : SG.CSched :=
  { mark := (List.range n).reverse, agg := (List.range n).reverse, copy := (List.range n).reverse
    dedup := (List.range n').reverse, write := (List.range n').reverse, comm := (List.range n).reverse
    threshold := thr, threads := 2, logBuckets := 1, insert := fun _ l => l.reverse, buckets := fun _ => [1, 0]
    srt := C51_srt, psrt := fun _ => C51_srt }

theorem C51_sched_legal {G : SGraph} {com : Nat → Nat} {n n' thr : Nat} (hn : G.nodes = List.range n)
    (hc : psum (SG.mapping com (List.range n).reverse) G.n = n') : SG.Legal (C51_sched n n' thr) G com := by
  refine ⟨?_, ?_, ?_, ?_, ?_, ?_, Nat.succ_pos 1, fun _ l => List.reverse_perm l, fun _ => ?_, C51_srt_ok, fun _ => C51_srt_ok⟩
  · rw [hn]; exact List.reverse_perm _
  · rw [hn]; exact List.reverse_perm _
  · rw [hn]; exact List.reverse_perm _
  · rw [hn]; exact List.reverse_perm _
  · show (List.range n').reverse.Perm _
    rw [show (C51_sched n n' thr).mark = (List.range n).reverse from rfl, hc]; exact List.reverse_perm _
  · show (List.range n').reverse.Perm _
    rw [show (C51_sched n n' thr).mark = (List.range n).reverse from rfl, hc]; exact List.reverse_perm _
  · show [1, 0].Perm (List.range (2 ^ 1))
    decide

/-- six nodes, eight edges; the clusters are {0,1}, {2,3}, {4}, {5} -/
def C51_edges (i : Nat) : Nat := [0, 1, 0, 2, 1, 3, 2, 3, 3, 4, 4, 5, 2, 4, 0, 5].getD i 0
def C51_com (v : Nat) : Nat := [1, 1, 3, 3, 0, 5].getD v 0
def C51_order : List (Nat × Bool) := (List.range 8).flatMap (fun e => [(e, false), (e, true)])

theorem C51_one {v : Nat} : 0 ≤ weightsOf none v := by simp [weightsOf]

/-- Non-vacuity: a constructed graph with positive weights meets the hypotheses, both with all clusters handled by the
low degree and all by the high degree path; the weights of merged edges are added. -/
theorem C51_nonvacuous : ∃ G ends w, createGraph 6 8 C51_edges (some (fun e => (e : Int) + 1)) none
      (C50_sched 6 C51_order) (fun _ => default) = some G ∧ G.Rep ends w ∧ (∀ v ∈ G.nodes, C51_com v < G.n) ∧
    SG.Legal (C51_sched 6 4 0) G C51_com ∧ SG.Legal (C51_sched 6 4 100) G C51_com ∧
    (let C := (SG.contract G C51_com (C51_sched 6 4 0) (fun _ => default) (fun _ => default) (fun _ => 0)).1
     C.n = 4 ∧ C.m = 8 ∧ (C.inc 1).map (fun e => ((C.edge e).tgt, (C.edge e).w)) = [(2, 5), (3, 8)]) := by
  have hl : (C50_sched 6 C51_order).Legal 8 := C50_sched_legal (by decide)
  refine ⟨_, _, _, rfl, ⟨(C50_stores (nw := none) (ew := some (fun e => (e : Int) + 1)) (edges := C51_edges)
    (edge0 := fun _ => default) (fun _ _ => C51_one) hl rfl).2.2.2.2.2.1, ?_⟩, ?_, ?_, ?_, ?_⟩
  · intro x _
    show (0 : Int) < (x : Int) + 1
    omega
  · intro v hv
    have := (C50_stores (nw := none) (ew := some (fun e => (e : Int) + 1)) (edges := C51_edges) (edge0 := fun _ => default)
      (fun _ _ => C51_one) hl rfl).2.2.1
    rw [this] at hv
    revert v
    decide
  · exact C51_sched_legal (C50_stores (nw := none) (ew := some (fun e => (e : Int) + 1)) (edges := C51_edges)
      (edge0 := fun _ => default) (fun _ _ => C51_one) hl rfl).2.2.1 (by decide +kernel)
  · exact C51_sched_legal (C50_stores (nw := none) (ew := some (fun e => (e : Int) + 1)) (edges := C51_edges)
      (edge0 := fun _ => default) (fun _ _ => C51_one) hl rfl).2.2.1 (by decide +kernel)
  · decide +kernel

/-- Zero edge weights are accepted by the construction, but `deduplicateTmpEdges` treats an edge of weight zero as deleted and
stops there.  Contracting the path 1 – 0 – 2 with weights 0 and 5 with singleton clusters loses the edge of weight 5 at
node 0, while node 2 still has it. -/
theorem C51_witness_zero_weight : let edges := fun i => [0, 1, 0, 2].getD i 0
    ∃ G ends w, createGraph 3 2 edges (some (fun e => [0, 5].getD e 0)) none
        (C50_sched 3 ((List.range 2).flatMap (fun e => [(e, false), (e, true)]))) (fun _ => default) = some G ∧
      G.Adj ends w ∧ SG.Legal (C51_sched 3 3 100) G id ∧
      (let C := (SG.contract G id (C51_sched 3 3 100) (fun _ => default) (fun _ => default) (fun _ => 0)).1
       C.n = 3 ∧ C.m = 1 ∧ C.inc 0 = [] ∧ (C.inc 2).map (fun e => ((C.edge e).tgt, (C.edge e).w)) = [(0, 5)]) := by
  have hl : (C50_sched 3 ((List.range 2).flatMap (fun e => [(e, false), (e, true)]))).Legal 2 := C50_sched_legal (by decide)
  refine ⟨_, _, _, rfl, (C50_stores (nw := none) (ew := some (fun e => [0, 5].getD e 0))
    (edges := fun i => [0, 1, 0, 2].getD i 0) (edge0 := fun _ => default) (fun _ _ => C51_one) hl rfl).2.2.2.2.2.1, ?_, ?_⟩
  · exact C51_sched_legal (C50_stores (nw := none) (ew := some (fun e => [0, 5].getD e 0))
      (edges := fun i => [0, 1, 0, 2].getD i 0)
      (edge0 := fun _ => default) (fun _ _ => C51_one) hl rfl).2.2.1 (by decide +kernel)
  · decide +kernel

end Verif
