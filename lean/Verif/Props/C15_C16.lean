import Verif.Lemmas.Contract4
import Verif.Lemmas.Hypergraph
import Mathlib.Algebra.BigOperators.Group.Finset.Basic
/-!
# C15, C16: contraction of a clustering

`H.Rep` describes the hypergraphs `contract` may be called on (adjacency arrays with disjoint
segments, incident nets inverse to pins; removed nodes and hyperedges are allowed).  `com` is the
clustering, `Schedules H com s` says that `s` is an order in which the parallel loops of this call
may run, `buf` the arbitrary previous content of the reused buffers.
-/
namespace Verif
open Contract

/-- node `v` is in coarse node `c` -/
abbrev coarseNode (H : SHG) (com : Nat → Nat) (s : CSched) (buf : CBuf) : Nat → Nat := (contract H com s buf).2
/-- the contracted hypergraph -/
abbrev contracted (H : SHG) (com : Nat → Nat) (s : CSched) (buf : CBuf) : SHG := (contract H com s buf).1

section
variable {H : SHG} {com : Nat → Nat} {s : CSched} {buf : CBuf}

theorem ContractResult.nodes {H' : SHG} {cid rep : Nat → Nat} (h : ContractResult H com H' cid rep) :
    H'.nodes = List.range H'.n := by
  unfold SHG.nodes
  rw [List.filter_eq_self]
  intro c _; exact h.enabledN c

theorem ContractResult.edges {H' : SHG} {cid rep : Nat → Nat} (h : ContractResult H com H' cid rep) :
    H'.edges = List.range H'.m := by
  unfold SHG.edges
  rw [List.filter_eq_self]
  intro e he; exact h.enabledE e (List.mem_range.1 he)

theorem cand_iff {cid : Nat → Nat} {e : Nat} :
    cand H cid e = true ↔ H.heEnabled e = true ∧ (cpins H cid e).length > 1 := by
  simp [cand]

theorem isRep.edge {cid : Nat → Nat} {e : Nat} (h : isRep H cid e) : e ∈ H.edges :=
  mem_edges.2 ⟨h.1, (cand_iff.1 h.2.1).1⟩

theorem ContractResult.wf (hR : H.Rep) {H' : SHG} {cid rep : Nat → Nat} (h : ContractResult H com H' cid rep) :
    H'.toHG.WF := by
  refine ⟨?_, ?_, ?_, ?_, ?_, ?_⟩
  · exact List.nodup_range.filter _
  · exact List.nodup_range.filter _
  · intro e he v hv
    show v ∈ H'.nodes
    have he : e < H'.m := (mem_edges.1 he).1
    have hv : v ∈ H'.pins e := hv
    rw [h.pins e he, mem_cpins hR h.coarse (h.isrep e he).edge] at hv
    obtain ⟨w, _, hw, rfl⟩ := hv
    rw [h.nodes, List.mem_range]
    exact h.coarse.lt w hw
  · intro e he
    have he : e < H'.m := (mem_edges.1 he).1
    show (H'.pins e).Nodup
    rw [h.pins e he]
    exact sorted_nodup (cpins_sorted H cid _)
  · intro v hv
    exact h.inc_nodup v (mem_nodes.1 hv).1
  · intro v hv e
    show e ∈ H'.inc v ↔ e ∈ H'.edges ∧ v ∈ H'.pins e
    rw [h.inc_iff v (mem_nodes.1 hv).1 e, h.edges, List.mem_range]

/-- The contracted hypergraph is well-formed (consecutive ids, pins without duplicates that are
nodes, incident nets exactly inverse to the pins), keeps the total weight, has no hyperedge with
fewer than two pins and no two hyperedges with the same pin set; the cached statistics (number of
pins, total degree, maximum hyperedge size) and the segments of the adjacency arrays are right.  It
can be contracted again. -/
theorem C16_contract_wellformed (hR : H.Rep) (hcom : ∀ v ∈ H.nodes, com v < H.n) (hs : Schedules H com s) :
    let H' := contracted H com s buf
    H'.toHG.WF ∧ H'.nodes = List.range H'.n ∧ H'.edges = List.range H'.m ∧
    H'.totalWeight = H.totalWeight ∧
    (∀ e < H'.m, 2 ≤ (H'.pins e).length) ∧
    (∀ e < H'.m, ∀ f < H'.m, (∀ v, v ∈ H'.pins e ↔ v ∈ H'.pins f) → e = f) ∧
    H'.numPins = ((List.range H'.m).map (fun e => (H'.pins e).length)).sum ∧
    H'.totalDegree = ((List.range H'.n).map (fun v => (H'.inc v).length)).sum ∧
    (∀ k, H'.maxEdgeSize ≤ k ↔ ∀ e < H'.m, (H'.pins e).length ≤ k) ∧
    (∀ e < H'.m, H'.heFirst e + H'.heSize e ≤ H'.numPins) ∧
    (∀ v < H'.n, H'.hnFirst v + H'.hnSize v ≤ H'.totalDegree) ∧
    H'.Rep := by
  intro H'
  obtain ⟨rep, h⟩ := contract_result (buf := buf) hR hcom hs
  have hlen : ∀ e, (H'.pins e).length = H'.heSize e := fun e => readSeg_length _ _ _
  have hlen' : ∀ e, (H'.inc e).length = H'.hnSize e := fun e => readSeg_length _ _ _
  refine ⟨h.wf hR, h.nodes, h.edges, h.totalWeight, ?_, ?_, h.numPins, ?_, ?_, h.edge_bound, h.node_bound, ?_⟩
  · intro e he
    rw [h.pins e he]
    exact (cand_iff.1 (h.isrep e he).2.1).2
  · intro e he f hf hpf
    apply h.rep_inj e he f hf
    have hk : cpins H (coarseNode H com s buf) (rep e) = cpins H (coarseNode H com s buf) (rep f) := by
      rw [← h.pins e he, ← h.pins f hf]
      refine sorted_ext ?_ ?_ hpf
      · rw [h.pins e he]; exact cpins_sorted _ _ _
      · rw [h.pins f hf]; exact cpins_sorted _ _ _
    exact Nat.le_antisymm ((h.isrep e he).2.2 _ (h.isrep f hf).1 (h.isrep f hf).2.1 hk.symm)
      ((h.isrep f hf).2.2 _ (h.isrep e he).1 (h.isrep e he).2.1 hk)
  · simp only [hlen']
    exact h.totalDegree
  · intro k
    simp only [hlen]
    exact h.maxEdgeSize k
  · have hwf := h.wf hR
    refine ⟨h.coarse.le.trans hR.small, ?_, ?_, ?_, ?_⟩
    · intro e he v hv
      exact (mem_nodes.1 (hwf.pins_mem e he v hv)).1
    · intro e he f hf hne
      exact h.edge_disj e (mem_edges.1 he).1 f (mem_edges.1 hf).1 hne
    · intro v hv e he
      exact ((h.inc_iff v (mem_nodes.1 hv).1 e).1 he).1
    · intro v hv e he
      have := hwf.inc_iff v hv e
      exact this.trans ⟨fun h => h.2, fun h => ⟨he, h⟩⟩

/-- The contracted hypergraph is the quotient of the input: two nodes get the same coarse node iff
they are in the same cluster, coarse nodes are numbered consecutively and weigh as much as their
cluster; a hyperedge that touches at least two clusters is represented by exactly one coarse
hyperedge, with exactly these clusters as pins, and the weight of a coarse hyperedge is the sum of
the weights of the hyperedges it represents. -/
theorem C16_contract_quotient (hR : H.Rep) (hcom : ∀ v ∈ H.nodes, com v < H.n) (hs : Schedules H com s) :
    let H' := contracted H com s buf
    let cn := coarseNode H com s buf
    (∀ v ∈ H.nodes, cn v < H'.n) ∧
    (∀ v ∈ H.nodes, ∀ w ∈ H.nodes, cn v = cn w ↔ com v = com w) ∧
    (∀ c < H'.n, ∃ v ∈ H.nodes, cn v = c) ∧
    (∀ c < H'.n, H'.hnWeight c = ((H.nodes.filter (fun v => cn v = c)).map H.hnWeight).sum) ∧
    (∀ e ∈ H.edges, (∃ v ∈ H.pins e, ∃ w ∈ H.pins e, v ∈ H.nodes ∧ w ∈ H.nodes ∧ com v ≠ com w) →
      ∃ e' < H'.m, ∀ c, c ∈ H'.pins e' ↔ ∃ v ∈ H.pins e, v ∈ H.nodes ∧ cn v = c) ∧
    (∀ e' < H'.m, H'.heWeight e' =
      ((H.edges.filter (fun e => decide (∀ c < H'.n, c ∈ H'.pins e' ↔ ∃ v ∈ H.pins e, v ∈ H.nodes ∧ cn v = c))).map
        H.heWeight).sum) ∧
    (∀ e' < H'.m, ∃ e ∈ H.edges, ∀ c, c ∈ H'.pins e' ↔ ∃ v ∈ H.pins e, v ∈ H.nodes ∧ cn v = c) := by
  intro H' cn
  obtain ⟨rep, h⟩ := contract_result (buf := buf) hR hcom hs
  have hmc : ∀ e ∈ H.edges, ∀ c, c ∈ cpins H cn e ↔ ∃ v ∈ H.pins e, v ∈ H.nodes ∧ cn v = c :=
    fun e he c => mem_cpins hR h.coarse he
  refine ⟨h.coarse.lt, h.coarse.same, h.coarse.onto, h.nw, ?_, ?_, ?_⟩
  · rintro e he ⟨v, hv, w, hw, hvn, hwn, hne⟩
    have hc : cand H cn e = true := by
      rw [cand_iff]
      refine ⟨(mem_edges.1 he).2, ?_⟩
      have h1 : cn v ∈ cpins H cn e := (hmc e he _).2 ⟨v, hv, hvn, rfl⟩
      have h2 : cn w ∈ cpins H cn e := (hmc e he _).2 ⟨w, hw, hwn, rfl⟩
      have h3 : cn v ≠ cn w := fun hh => hne ((h.coarse.same v hvn w hwn).1 hh)
      by_contra hlen
      match hl : cpins H cn e with
      | [] => rw [hl] at h1; simp at h1
      | [a] => rw [hl] at h1 h2; simp at h1 h2; exact h3 (h1.trans h2.symm)
      | a :: b :: l => rw [hl] at hlen; simp at hlen
    -- smallest candidate with these contracted pins
    have hexm : ∃ id, isRep H cn id ∧ cpins H cn id = cpins H cn e := by
      have hex : ∃ id, id < H.m ∧ cand H cn id = true ∧ cpins H cn id = cpins H cn e :=
        ⟨e, (mem_edges.1 he).1, hc, rfl⟩
      classical
      refine ⟨Nat.find hex, ⟨(Nat.find_spec hex).1, (Nat.find_spec hex).2.1, ?_⟩, (Nat.find_spec hex).2.2⟩
      intro y hy hcy hk
      exact Nat.find_min' hex ⟨hy, hcy, hk.trans (Nat.find_spec hex).2.2⟩
    obtain ⟨id, hid, hk⟩ := hexm
    obtain ⟨e', he', rfl⟩ := h.rep_onto id hid
    refine ⟨e', he', fun c => ?_⟩
    rw [h.pins e' he', hk, hmc e he]
  · intro e' he'
    rw [h.ew e' he']
    congr 2
    unfold SHG.edges
    rw [List.filter_filter]
    apply List.filter_congr
    intro y hy
    rw [Bool.eq_iff_iff]
    simp only [Bool.and_eq_true, decide_eq_true_eq]
    have hre := (h.isrep e' he').edge
    constructor
    · rintro ⟨h1, h2⟩
      have hyE : y ∈ H.edges := mem_edges.2 ⟨List.mem_range.1 hy, (cand_iff.1 h1).1⟩
      refine ⟨?_, (cand_iff.1 h1).1⟩
      intro c _
      rw [h.pins e' he', ← h2, hmc y hyE]
    · rintro ⟨h1, h2⟩
      have hyE : y ∈ H.edges := mem_edges.2 ⟨List.mem_range.1 hy, h2⟩
      have hk : cpins H cn y = cpins H cn (rep e') := by
        refine sorted_ext (cpins_sorted _ _ _) (cpins_sorted _ _ _) ?_
        intro c
        constructor
        · intro hc
          have hc' := (hmc y hyE c).1 hc
          obtain ⟨v, _, hvn, rfl⟩ := hc'
          have := (h1 (cn v) (h.coarse.lt v hvn)).2 ((hmc y hyE _).1 hc)
          rwa [h.pins e' he'] at this
        · intro hc
          obtain ⟨v, _, hvn, rfl⟩ := (hmc _ hre c).1 hc
          rw [hmc y hyE]
          apply (h1 (cn v) (h.coarse.lt v hvn)).1
          rw [h.pins e' he']; exact hc
      refine ⟨cand_iff.2 ⟨h2, ?_⟩, hk⟩
      rw [hk]
      exact (cand_iff.1 (h.isrep e' he').2.1).2
  · intro e' he'
    refine ⟨rep e', (h.isrep e' he').edge, fun c => ?_⟩
    rw [h.pins e' he', hmc _ (h.isrep e' he').edge]

/-! ### C15 -/

theorem list_sum_filter_eq_finset {l : List Nat} (hn : l.Nodup) (f : Nat → Int) :
    (l.map f).sum = ∑ x ∈ l.toFinset, f x := (List.sum_toFinset f hn).symm

/-- regrouping a sum over `L` by the fibres of `g` -/
theorem sum_regroup {L R : List Nat} (hL : L.Nodup) (hRn : R.Nodup) (g : Nat → Nat) (hg : ∀ y ∈ L, g y ∈ R)
    (f : Nat → Int) : (L.map f).sum = (R.map (fun e => ((L.filter (fun y => g y = e)).map f).sum)).sum := by
  rw [list_sum_filter_eq_finset hL, list_sum_filter_eq_finset hRn]
  rw [← Finset.sum_fiberwise_of_maps_to (s := L.toFinset) (t := R.toFinset) (g := g)
    (fun x hx => by rw [List.mem_toFinset] at hx ⊢; exact hg x hx)]
  apply Finset.sum_congr rfl
  intro e _
  rw [list_sum_filter_eq_finset (hL.filter _), List.toFinset_filter]
  simp

theorem sum_map_zero_of {L : List Nat} {f : Nat → Int} (h : ∀ x ∈ L, f x = 0) : (L.map f).sum = 0 := by
  induction L with
  | nil => rfl
  | cons a l ih =>
    rw [List.map_cons, List.sum_cons, h a (by simp), ih (fun x hx => h x (by simp [hx]))]; simp

theorem sum_mul_left_list (L : List Nat) (f : Nat → Int) (k : Int) :
    (L.map (fun x => k * f x)).sum = k * (L.map f).sum := by
  induction L with
  | nil => simp
  | cons a l ih => rw [List.map_cons, List.sum_cons, List.map_cons, List.sum_cons, ih, Int.mul_add]

theorem sum_split {L : List Nat} (p : Nat → Bool) (f : Nat → Int) (h0 : ∀ x ∈ L, p x = false → f x = 0) :
    (L.map f).sum = ((L.filter p).map f).sum := by
  induction L with
  | nil => rfl
  | cons a l ih =>
    have ih := ih (fun x hx => h0 x (by simp [hx]))
    rw [List.map_cons, List.sum_cons, List.filter_cons]
    by_cases hp : p a = true
    · rw [if_pos hp, List.map_cons, List.sum_cons, ih]
    · rw [if_neg hp, h0 a (by simp) (by simpa using hp), ih]; simp

/-- An objective that is a sum of `w(e) * F(blocks of e)` with `F = 0` for hyperedges whose
contracted pins are a single node has the same value before and after contraction. -/
theorem objective_eq {H' : SHG} {cid rep : Nat → Nat} (h : ContractResult H com H' cid rep)
    (F : List Nat → Int) (h0 : ∀ e ∈ H.edges, (cpins H cid e).length ≤ 1 → F (cpins H cid e) = 0) :
    (H.edges.map (fun e => F (cpins H cid e) * H.heWeight e)).sum =
      (H'.edges.map (fun e => F (H'.pins e) * H'.heWeight e)).sum := by
  classical
  rw [sum_split (fun e => cand H cid e) (fun e => F (cpins H cid e) * H.heWeight e)
    (by
      intro e he hc
      have hle : (cpins H cid e).length ≤ 1 := by
        have := (mem_edges.1 he).2
        simp [cand, this] at hc
        exact hc
      rw [h0 e he hle]; simp)]
  -- the coarse hyperedge of a candidate
  have hex : ∀ y, ∃ e', (y < H.m ∧ cand H cid y = true) → e' < H'.m ∧ cpins H cid (rep e') = cpins H cid y := by
    intro y
    by_cases hy : y < H.m ∧ cand H cid y = true
    · have hex : ∃ id, id < H.m ∧ cand H cid id = true ∧ cpins H cid id = cpins H cid y := ⟨y, hy.1, hy.2, rfl⟩
      have hid : isRep H cid (Nat.find hex) := by
        refine ⟨(Nat.find_spec hex).1, (Nat.find_spec hex).2.1, ?_⟩
        intro z hz hcz hk
        exact Nat.find_min' hex ⟨hz, hcz, hk.trans (Nat.find_spec hex).2.2⟩
      obtain ⟨e', he', hr⟩ := h.rep_onto _ hid
      exact ⟨e', fun _ => ⟨he', by rw [hr]; exact (Nat.find_spec hex).2.2⟩⟩
    · exact ⟨0, fun hh => absurd hh hy⟩
  choose g hg using hex
  have hL : ∀ y, y ∈ H.edges.filter (fun e => cand H cid e) ↔ y < H.m ∧ cand H cid y = true := by
    intro y
    rw [List.mem_filter, mem_edges, cand_iff]
    tauto
  have hrepinj : ∀ e < H'.m, ∀ f < H'.m, cpins H cid (rep e) = cpins H cid (rep f) → e = f := by
    intro e he f hf hk
    apply h.rep_inj e he f hf
    exact Nat.le_antisymm ((h.isrep e he).2.2 _ (h.isrep f hf).1 (h.isrep f hf).2.1 hk.symm)
      ((h.isrep f hf).2.2 _ (h.isrep e he).1 (h.isrep e he).2.1 hk)
  have hnd1 : (H.edges.filter (fun e => cand H cid e)).Nodup := (List.nodup_range.filter _).filter _
  have hnd2 : H'.edges.Nodup := List.nodup_range.filter _
  rw [sum_regroup (R := H'.edges) hnd1 hnd2 g
    (by
      intro y hy
      rw [h.edges, List.mem_range]
      exact (hg y ((hL y).1 hy)).1)]
  congr 1
  apply List.map_congr_left
  intro e' he'
  have he' : e' < H'.m := (mem_edges.1 he').1
  rw [h.pins e' he', h.ew e' he', ← sum_mul_left_list]
  have hfe : (H.edges.filter (fun e => cand H cid e)).filter (fun y => decide (g y = e')) =
      (List.range H.m).filter (fun y => cand H cid y && decide (cpins H cid y = cpins H cid (rep e'))) := by
    unfold SHG.edges
    rw [List.filter_filter, List.filter_filter]
    apply List.filter_congr
    intro y hy
    rw [Bool.eq_iff_iff]
    simp only [Bool.and_eq_true, decide_eq_true_eq]
    constructor
    · rintro ⟨⟨h1, h2⟩, _⟩
      have := hg y ⟨List.mem_range.1 hy, h2⟩
      rw [h1] at this
      exact ⟨h2, this.2.symm⟩
    · rintro ⟨h1, h2⟩
      have := hg y ⟨List.mem_range.1 hy, h1⟩
      exact ⟨⟨hrepinj _ this.1 _ he' (this.2.trans h2), h1⟩, (cand_iff.1 h1).1⟩
  rw [hfe]
  congr 1
  apply List.map_congr_left
  intro y hy
  have hy := (List.mem_filter.1 hy).2
  simp only [Bool.and_eq_true, decide_eq_true_eq] at hy
  rw [hy.2]

/-- number of distinct blocks in a list of nodes -/
def lamOf (Φ : Assign) (l : List Nat) : Nat := ((l.filterMap Φ).toFinset).card

theorem lam_project (hR : H.Rep) {H' : SHG} {cid rep : Nat → Nat} (h : ContractResult H com H' cid rep)
    (hpn : ∀ e ∈ H.edges, ∀ v ∈ H.pins e, v ∈ H.nodes) (Φ : Assign) {e : Nat} (he : e ∈ H.edges) :
    H.toHG.lam (fun v => Φ (cid v)) e = lamOf Φ (cpins H cid e) := by
  unfold HG.lam HG.blocksOf lamOf
  congr 1
  ext b
  simp only [List.mem_toFinset, List.mem_filterMap]
  constructor
  · rintro ⟨v, hv, hb⟩
    exact ⟨cid v, (mem_cpins hR h.coarse he).2 ⟨v, hv, hpn e he v hv, rfl⟩, hb⟩
  · rintro ⟨c, hc, hb⟩
    obtain ⟨v, hv, _, rfl⟩ := (mem_cpins hR h.coarse he).1 hc
    exact ⟨v, hv, hb⟩

theorem lamOf_le (Φ : Assign) (l : List Nat) : lamOf Φ l ≤ l.length :=
  (List.toFinset_card_le _).trans (List.length_filterMap_le _ _)

theorem objectives_of_result (hR : H.Rep) {H' : SHG} {cid rep : Nat → Nat} (h : ContractResult H com H' cid rep)
    (hpn : ∀ e ∈ H.edges, ∀ v ∈ H.pins e, v ∈ H.nodes) (Φ : Assign) (Φ₀ : Assign) (hΦ : Φ₀ = fun v => Φ (cid v)) :
    H'.toHG.cut Φ = H.toHG.cut Φ₀ ∧
    H'.toHG.soed Φ = H.toHG.soed Φ₀ ∧
    (∀ b, H'.toHG.blockWeight Φ b = H.toHG.blockWeight Φ₀ b) ∧
    H'.toHG.totalWeight = H.toHG.totalWeight ∧
    ((∀ e ∈ H.edges, H.pins e ≠ [] ∧ ∀ v ∈ H.pins e, Φ₀ v ≠ none) → H'.toHG.km1 Φ = H.toHG.km1 Φ₀) := by
  subst hΦ
  have hl0 : ∀ e ∈ H.edges, H.toHG.lam (fun v => Φ (cid v)) e = lamOf Φ (cpins H cid e) :=
    fun e he => lam_project hR h hpn Φ he
  have hl1 : ∀ e, H'.toHG.lam Φ e = lamOf Φ (H'.pins e) := fun _ => rfl
  have hnw : ∀ (p : Nat → Bool), ((H'.nodes.filter p).map H'.hnWeight).sum =
      ((H.nodes.filter (fun v => p (cid v))).map H.hnWeight).sum := by
    intro p
    have hnd1 : (H.nodes.filter (fun v => p (cid v))).Nodup := (List.nodup_range.filter _).filter _
    have hnd2 : (H'.nodes.filter p).Nodup := (List.nodup_range.filter _).filter _
    rw [sum_regroup (L := H.nodes.filter (fun v => p (cid v))) (R := H'.nodes.filter p) hnd1 hnd2 cid
      (by
        intro v hv
        rw [List.mem_filter] at hv ⊢
        exact ⟨by rw [h.nodes, List.mem_range]; exact h.coarse.lt v hv.1, hv.2⟩)]
    congr 1
    apply List.map_congr_left
    intro c hc
    rw [List.mem_filter, h.nodes, List.mem_range] at hc
    rw [h.nw c hc.1]
    congr 2
    rw [List.filter_filter]
    apply List.filter_congr
    intro v _
    rw [Bool.eq_iff_iff]
    simp only [Bool.and_eq_true, decide_eq_true_eq]
    constructor
    · intro hh; exact ⟨hh, by rw [hh]; exact hc.2⟩
    · exact fun hh => hh.1
  refine ⟨?_, ?_, ?_, ?_, ?_⟩
  · unfold HG.cut
    have := objective_eq h (fun l => if lamOf Φ l > 1 then 1 else 0) (by
      intro e _ hle
      have := lamOf_le Φ (cpins H cid e)
      rw [if_neg (by omega)])
    refine Eq.trans ?_ (this.symm.trans ?_)
    · congr 1
      apply List.map_congr_left
      intro e _
      rw [hl1]
      split <;> simp [SHG.toHG, *]
    · congr 1
      apply List.map_congr_left
      intro e he
      rw [hl0 e he]
      split <;> simp [SHG.toHG, *]
  · unfold HG.soed
    have := objective_eq h (fun l => if lamOf Φ l > 1 then (lamOf Φ l : Int) else 0) (by
      intro e _ hle
      have := lamOf_le Φ (cpins H cid e)
      rw [if_neg (by omega)])
    refine Eq.trans ?_ (this.symm.trans ?_)
    · congr 1
      apply List.map_congr_left
      intro e _
      rw [hl1]
      split <;> simp [SHG.toHG, *]
    · congr 1
      apply List.map_congr_left
      intro e he
      rw [hl0 e he]
      split <;> simp [SHG.toHG, *]
  · intro b
    unfold HG.blockWeight
    exact hnw (fun c => decide (Φ c = some b))
  · unfold HG.totalWeight
    have := hnw (fun _ => true)
    simpa [SHG.toHG] using this
  · intro hasg
    unfold HG.km1
    have := objective_eq h (fun l => (lamOf Φ l : Int) - 1) (by
      intro e he hle
      have h1 := lamOf_le Φ (cpins H cid e)
      have h2 : 0 < lamOf Φ (cpins H cid e) := by
        rw [← hl0 e he]
        obtain ⟨hne, hall⟩ := hasg e he
        obtain ⟨v, hv⟩ := List.exists_mem_of_ne_nil _ hne
        obtain ⟨b, hb⟩ := Option.ne_none_iff_exists'.1 (hall v hv)
        apply Finset.card_pos.2
        exact ⟨b, by
          unfold HG.blocksOf
          rw [List.mem_toFinset, List.mem_filterMap]
          exact ⟨v, hv, hb⟩⟩
      omega)
    refine Eq.trans ?_ (this.symm.trans ?_)
    · congr 1
    · congr 1
      apply List.map_congr_left
      intro e he
      rw [hl0 e he]
      rfl

/-- **C15.** For every clustering, every schedule and every partition `Φ` of the contracted
hypergraph, giving each node the block of its coarse node yields a partition of the input with the
same cut, soed and block weights, and the same km1 provided every hyperedge has a pin and every pin
a block. -/
theorem C15_coarsening_preserves_objective (hR : H.Rep) (hcom : ∀ v ∈ H.nodes, com v < H.n)
    (hs : Schedules H com s) (hpn : ∀ e ∈ H.edges, ∀ v ∈ H.pins e, v ∈ H.nodes) (Φ : Assign) :
    let H' := contracted H com s buf
    let Φ₀ : Assign := fun v => Φ (coarseNode H com s buf v)
    H'.toHG.cut Φ = H.toHG.cut Φ₀ ∧
    H'.toHG.soed Φ = H.toHG.soed Φ₀ ∧
    (∀ b, H'.toHG.blockWeight Φ b = H.toHG.blockWeight Φ₀ b) ∧
    H'.toHG.totalWeight = H.toHG.totalWeight ∧
    ((∀ e ∈ H.edges, H.pins e ≠ [] ∧ ∀ v ∈ H.pins e, Φ₀ v ≠ none) → H'.toHG.km1 Φ = H.toHG.km1 Φ₀) := by
  obtain ⟨rep, h⟩ := contract_result (buf := buf) hR hcom hs
  exact objectives_of_result hR h hpn Φ _ rfl

/-- A coarsening hierarchy: a sequence of contractions, each applied to the result of the previous
one; `f` maps the nodes of the input to the nodes of the coarsest level. -/
inductive Hierarchy : SHG → SHG → (Nat → Nat) → Prop
  | refl (H : SHG) : Hierarchy H H id
  | step {H₀ H : SHG} {f : Nat → Nat} (com : Nat → Nat) (s : CSched) (buf : CBuf) :
      Hierarchy H₀ H f → (∀ v ∈ H.nodes, com v < H.n) → Schedules H com s →
      Hierarchy H₀ (contracted H com s buf) (fun v => coarseNode H com s buf (f v))

/-- C15 for a whole multilevel hierarchy: the partition of the coarsest hypergraph projected to the
input has the same objectives and block weights. -/
theorem C15_hierarchy_preserves_objective {H₀ Hk : SHG} {f : Nat → Nat} (hR : H₀.Rep)
    (hpn : ∀ e ∈ H₀.edges, H₀.pins e ≠ [] ∧ ∀ v ∈ H₀.pins e, v ∈ H₀.nodes) (h : Hierarchy H₀ Hk f) :
    (∀ v ∈ H₀.nodes, f v ∈ Hk.nodes) ∧
    ∀ Φ : Assign, (∀ v ∈ Hk.nodes, Φ v ≠ none) →
      Hk.toHG.cut Φ = H₀.toHG.cut (fun v => Φ (f v)) ∧
      Hk.toHG.soed Φ = H₀.toHG.soed (fun v => Φ (f v)) ∧
      Hk.toHG.km1 Φ = H₀.toHG.km1 (fun v => Φ (f v)) ∧
      ∀ b, Hk.toHG.blockWeight Φ b = H₀.toHG.blockWeight (fun v => Φ (f v)) b := by
  suffices G : Hk.Rep ∧ (∀ e ∈ Hk.edges, Hk.pins e ≠ [] ∧ ∀ v ∈ Hk.pins e, v ∈ Hk.nodes) ∧
      ((∀ v ∈ H₀.nodes, f v ∈ Hk.nodes) ∧ ∀ Φ : Assign, (∀ v ∈ Hk.nodes, Φ v ≠ none) →
      Hk.toHG.cut Φ = H₀.toHG.cut (fun v => Φ (f v)) ∧
      Hk.toHG.soed Φ = H₀.toHG.soed (fun v => Φ (f v)) ∧
      Hk.toHG.km1 Φ = H₀.toHG.km1 (fun v => Φ (f v)) ∧
      ∀ b, Hk.toHG.blockWeight Φ b = H₀.toHG.blockWeight (fun v => Φ (f v)) b) from G.2.2
  induction h with
  | refl => exact ⟨hR, hpn, fun v hv => hv, fun Φ _ => ⟨rfl, rfl, rfl, fun _ => rfl⟩⟩
  | step com s buf h hcom hs ih =>
    rename_i H₁ f₁
    obtain ⟨r1, r2, r3, r4⟩ := ih
    have hwf := C16_contract_wellformed (buf := buf) r1 hcom hs
    simp only at hwf
    obtain ⟨w1, w2, w3, _, w5, _, _, _, _, _, _, w12⟩ := hwf
    have hq := C16_contract_quotient (buf := buf) r1 hcom hs
    simp only at hq
    have hcn : ∀ v ∈ H₁.nodes, coarseNode H₁ com s buf v ∈ (contracted H₁ com s buf).nodes := by
      intro v hv
      rw [w2, List.mem_range]
      exact hq.1 v hv
    refine ⟨w12, ?_, fun v hv => hcn _ (r3 v hv), ?_⟩
    · intro e he
      have he' := (mem_edges.1 he).1
      refine ⟨?_, fun v hv => w1.pins_mem e he v hv⟩
      intro hnil
      have := w5 e he'
      rw [hnil] at this
      simp at this
    · intro Φ hΦ
      obtain ⟨c1, c2, c3, _, c5⟩ := C15_coarsening_preserves_objective (buf := buf) r1 hcom hs
        (fun e he => (r2 e he).2) Φ
      have hasg : ∀ v ∈ H₁.nodes, Φ (coarseNode H₁ com s buf v) ≠ none := fun v hv => hΦ _ (hcn v hv)
      have c5 := c5 (fun e he => ⟨(r2 e he).1, fun v hv => hasg v ((r2 e he).2 v hv)⟩)
      obtain ⟨d1, d2, d3, d4⟩ := r4 (fun v => Φ (coarseNode H₁ com s buf v)) hasg
      exact ⟨c1.trans d1, c2.trans d2, c5.trans d3, fun b => (c3 b).trans (d4 b)⟩

end

/-! ### A concrete case -/

/-- 6 nodes (node 5 removed), 6 hyperedges (hyperedge 5 removed): {0,1}, {2,3}, {0,3,4}, {1,2}, {0,2}. -/
def exSHG : SHG :=
  { n := 6, m := 6
    hnEnabled := fun v => decide (v ≠ 5)
    hnFirst := fun v => [0, 3, 5, 8, 10, 11].getD v 0
    hnSize := fun v => [3, 2, 3, 2, 1, 0].getD v 0
    hnWeight := fun v => [1, 2, 3, 1, 1, 7].getD v 0
    heEnabled := fun e => decide (e ≠ 5)
    heFirst := fun e => [0, 2, 4, 7, 9, 11].getD e 0
    heSize := fun e => [2, 2, 3, 2, 2, 2].getD e 0
    heWeight := fun e => [1, 1, 2, 3, 4, 5].getD e 0
    incidenceArray := fun i => [0, 1, 2, 3, 0, 3, 4, 1, 2, 0, 2, 5, 4].getD i 0
    incidentNets := fun i => [0, 2, 4, 0, 3, 1, 3, 4, 1, 2, 2].getD i 0
    totalWeight := 15, numPins := 13, totalDegree := 12, maxEdgeSize := 3 }

/-- clusters {0,1}, {2,3}, {4} -/
def exCom : Nat → Nat := fun v => [0, 0, 2, 2, 4, 5].getD v 0

/-- a schedule that runs the loops in reverse order, with 4 buckets -/
def exCSched : CSched :=
  { mark := [4, 3, 2, 1, 0], agg := [4, 2, 3, 0, 1], edges := [5, 4, 3, 2, 1, 0], copy := [3, 2, 4, 0, 1]
    dedup := [2, 1, 0], logBuckets := 2, buckets := [3, 1, 2, 0]
    netInsert := fun c => (List.range ([5, 5, 1].getD c 0)).reverse, netBuckets := fun _ => [3, 2, 1, 0]
    writeEdges := [5, 4, 3, 2, 1, 0], remap := [1, 0, 2], writeNodes := [2, 0, 1], threshold := 2
    deterministic := false }

theorem exSHG_rep : exSHG.Rep := by
  refine ⟨by decide, by decide, by decide, by decide, by decide⟩

theorem exSHG_sched : Schedules exSHG exCom exCSched := by
  have h1 : psum (mapping exCom exCSched.mark) exSHG.n = 3 := by decide
  unfold Schedules
  rw [h1]
  refine ⟨by decide, by decide, by decide, by decide, by decide, by decide, ?_, ?_, by decide, by decide, by decide⟩
  · intro c hc
    have : c = 0 ∨ c = 1 ∨ c = 2 := by omega
    rcases this with rfl | rfl | rfl <;> decide
  · intro c _
    show List.Perm [3, 2, 1, 0] (List.range (2 ^ 2))
    decide

/-- the hypotheses of C15 and C16 hold for this contraction, which merges nodes, drops two
single-pin hyperedges and merges the parallel hyperedges 3 and 4 -/
example (buf : CBuf) : (contracted exSHG exCom exCSched buf).toHG.WF :=
  (C16_contract_wellformed exSHG_rep (by decide) exSHG_sched).1

example (buf : CBuf) (Φ : Assign) : (contracted exSHG exCom exCSched buf).toHG.cut Φ =
    exSHG.toHG.cut (fun v => Φ (coarseNode exSHG exCom exCSched buf v)) :=
  (C15_coarsening_preserves_objective exSHG_rep (by decide) exSHG_sched (by decide) Φ).1

end Verif
