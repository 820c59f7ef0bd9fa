import Verif.Lemmas.Contract3
/-! The result of a contraction, assembled from the lemmas about its stages. -/
namespace Verif
open SMap (wr)
open Contract

/-- What a contraction computes: `cid` maps nodes to coarse nodes, `rep` coarse hyperedges to the
input hyperedge they stand for. -/
structure ContractResult (H : SHG) (com : Nat → Nat) (H' : SHG) (cid rep : Nat → Nat) : Prop where
  coarse : CoarseSpec H com cid H'.n
  enabledN : ∀ c, H'.hnEnabled c = true
  enabledE : ∀ e < H'.m, H'.heEnabled e = true
  isrep : ∀ e < H'.m, isRep H cid (rep e)
  rep_inj : ∀ e < H'.m, ∀ f < H'.m, rep e = rep f → e = f
  rep_onto : ∀ id, isRep H cid id → ∃ e < H'.m, rep e = id
  pins : ∀ e < H'.m, H'.pins e = cpins H cid (rep e)
  ew : ∀ e < H'.m, H'.heWeight e =
    (((List.range H.m).filter (fun y => cand H cid y && decide (cpins H cid y = cpins H cid (rep e)))).map
      H.heWeight).sum
  nw : ∀ c < H'.n, H'.hnWeight c = ((H.nodes.filter (fun v => cid v = c)).map H.hnWeight).sum
  inc_nodup : ∀ c < H'.n, (H'.inc c).Nodup
  inc_iff : ∀ c < H'.n, ∀ e, e ∈ H'.inc c ↔ e < H'.m ∧ c ∈ H'.pins e
  edge_disj : ∀ e < H'.m, ∀ f < H'.m, e ≠ f →
    H'.heFirst e + H'.heSize e ≤ H'.heFirst f ∨ H'.heFirst f + H'.heSize f ≤ H'.heFirst e
  edge_bound : ∀ e < H'.m, H'.heFirst e + H'.heSize e ≤ H'.numPins
  node_disj : ∀ c < H'.n, ∀ d < H'.n, c ≠ d →
    H'.hnFirst c + H'.hnSize c ≤ H'.hnFirst d ∨ H'.hnFirst d + H'.hnSize d ≤ H'.hnFirst c
  node_bound : ∀ c < H'.n, H'.hnFirst c + H'.hnSize c ≤ H'.totalDegree
  totalDegree : H'.totalDegree = ((List.range H'.n).map H'.hnSize).sum
  totalWeight : H'.totalWeight = H.totalWeight
  numPins : H'.numPins = ((List.range H'.m).map (fun e => (H'.pins e).length)).sum
  maxEdgeSize : ∀ k, H'.maxEdgeSize ≤ k ↔ ∀ e < H'.m, H'.heSize e ≤ k

/-- summing over the indices flagged in a 0/1 array, in terms of their ranks -/
theorem psum_flagged (valid x y : Nat → Nat) (h01 : ∀ i, valid i ≤ 1)
    (hx0 : ∀ i, valid i = 0 → x i = 0) (n : Nat) (hy : ∀ i < n, valid i > 0 → y (psum valid i) = x i) :
    psum x n = psum y (psum valid n) := by
  induction n with
  | zero => rfl
  | succ n ih =>
    rw [psum_succ, psum_succ, ih (fun i hi => hy i (by omega))]
    have := h01 n
    by_cases hv : valid n = 0
    · rw [hx0 n hv, hv]; simp
    · have h1 : valid n = 1 := by omega
      rw [h1, psum_succ, hy n (by omega) (by omega)]

theorem contract_result {H : SHG} {com : Nat → Nat} {s : CSched} {buf : CBuf} (hR : H.Rep)
    (hcom : ∀ v ∈ H.nodes, com v < H.n) (hs : Schedules H com s) :
    ∃ rep, ContractResult H com (contract H com s buf).1 (contract H com s buf).2 rep := by
  -- names for the intermediate results
  obtain ⟨mp, hmp⟩ : ∃ mp, mp = mapping com s.mark := ⟨_, rfl⟩
  obtain ⟨cid, hcid⟩ : ∃ cid, cid = coarse H com mp := ⟨_, rfl⟩
  obtain ⟨n', hn'⟩ : ∃ n', n' = psum mp H.n := ⟨_, rfl⟩
  obtain ⟨agg, hagg⟩ : ∃ agg, agg = aggregate H cid s.agg := ⟨_, rfl⟩
  obtain ⟨st, hst⟩ : ∃ st, st = contractEdges H cid s.logBuckets buf s.edges := ⟨_, rfl⟩
  obtain ⟨copied, hcopied⟩ : ∃ copied, copied = copyNets H cid (psum agg.2) buf.incidentNets s.copy := ⟨_, rfl⟩
  obtain ⟨ded, hded⟩ : ∃ ded, ded = dedupAll s (psum agg.2) copied.1 (fun _ => 0) := ⟨_, rfl⟩
  obtain ⟨det, hdet⟩ : ∃ det, det = detectAll st s.buckets := ⟨_, rfl⟩
  obtain ⟨sizes, hsizes⟩ : ∃ sizes : Nat → Nat, sizes = fun id => if det.2 id > 0 then st.size id else 0 := ⟨_, rfl⟩
  obtain ⟨ne, hne⟩ : ∃ ne, ne = s.writeEdges.foldl (writeEdge st det.1 det.2 sizes)
    { first := buf.newFirst, size := buf.newSize, enabled := buf.newEnabled, weight := buf.newWeight,
      arr := buf.newIncidenceArray, maxSize := 0 } := ⟨_, rfl⟩
  obtain ⟨rem, hrem⟩ : ∃ rem, rem = remapAll det.2 (psum agg.2) s.remap ded.1 ded.2 := ⟨_, rfl⟩
  have hres : contract H com s buf =
      ({ n := n', m := psum det.2 H.m, hnEnabled := fun _ => true, hnFirst := psum rem.2, hnSize := rem.2,
         hnWeight := agg.1, heEnabled := ne.enabled, heFirst := ne.first, heSize := ne.size,
         heWeight := ne.weight, incidenceArray := ne.arr,
         incidentNets := writeNets rem.1 (psum agg.2) rem.2 s.writeNodes buf.newIncidentNets,
         totalWeight := H.totalWeight, numPins := psum sizes H.m, totalDegree := psum rem.2 n',
         maxEdgeSize := ne.maxSize }, cid) := by
    subst hne hrem hsizes hdet hded hcopied hst hagg hn' hcid hmp
    rfl
  unfold Schedules at hs
  rw [← hmp, ← hn', ← hcid, ← hagg] at hs
  rw [hres]
  simp only
  have hC : CoarseSpec H com cid n' := by
    rw [hcid, hn', hmp]; exact coarse_spec hs.mark hcom
  have hdone : ∀ e < H.m, EdgeDone H cid e st := by
    rw [hst]; exact contractEdges_done hR cid s.logBuckets buf hs.edges
  have hbk : ∀ b, st.bucket b = (s.edges.filter (inBucket H cid s.logBuckets b)).map (infoOf H cid) := by
    intro b; rw [hst]; exact contractEdges_bucket H cid s.logBuckets buf s.edges b
  have hdetS : ∀ e < H.m, (det.2 e > 0 ↔ isRep H cid e) ∧ det.2 e ≤ 1 ∧ (isRep H cid e → det.1 e =
      (((List.range H.m).filter (fun y => cand H cid y && decide (cpins H cid y = cpins H cid e))).map
        H.heWeight).sum) := by
    intro e he
    rw [hdet]
    exact detectAll_spec hdone hs.edges hbk hs.buckets he
  -- a 0/1 array that agrees with the flags below `m`
  obtain ⟨fl, hfl⟩ : ∃ fl : Nat → Nat, fl = fun i => if i < H.m then det.2 i else 0 := ⟨_, rfl⟩
  have hfl01 : ∀ i, fl i ≤ 1 := by
    intro i; rw [hfl]; simp only; split
    · rename_i h; exact (hdetS i h).2.1
    · omega
  have hflm : ∀ i ≤ H.m, psum det.2 i = psum fl i := by
    intro i hi
    apply psum_congr
    intro j hj
    rw [hfl]; simp only; rw [if_pos (by omega)]
  have hfleq : ∀ i < H.m, fl i = det.2 i := by intro i hi; rw [hfl]; simp only; rw [if_pos hi]
  -- the representative of a coarse hyperedge
  have hex : ∀ e, ∃ id, e < psum det.2 H.m → id < H.m ∧ det.2 id > 0 ∧ psum det.2 id = e := by
    intro e
    by_cases he : e < psum det.2 H.m
    · rw [hflm _ (Nat.le_refl _)] at he
      obtain ⟨i, h1, h2, h3⟩ := psum_surj fl hfl01 he
      exact ⟨i, fun _ => ⟨h1, by rw [← hfleq i h1]; exact h2, by rw [hflm i (by omega)]; exact h3⟩⟩
    · exact ⟨0, fun h => absurd h he⟩
  choose rep hrep using hex
  have hw := writeEdges_spec (st := st) (weight := det.1) (valid := det.2) (m := H.m) (order := s.writeEdges)
    (sizes := sizes) hsizes hs.writeEdges
    { first := buf.newFirst, size := buf.newSize, enabled := buf.newEnabled, weight := buf.newWeight,
      arr := buf.newIncidenceArray, maxSize := 0 }
  simp only [← hne] at hw
  have hrs : ∀ e < psum det.2 H.m, isRep H cid (rep e) := by
    intro e he
    obtain ⟨h1, h2, _⟩ := hrep e he
    exact (hdetS _ h1).1.1 h2
  have hen : ∀ id, isRep H cid id → H.heEnabled id = true := by
    intro id h
    have := h.2.1
    unfold cand at this
    simp only [Bool.and_eq_true] at this
    exact this.1
  have hfields : ∀ e < psum det.2 H.m, ne.first e = psum sizes (rep e) ∧
      ne.size e = (cpins H cid (rep e)).length ∧ ne.enabled e = true ∧ ne.weight e = det.1 (rep e) ∧
      readSeg ne.arr (psum sizes (rep e)) (cpins H cid (rep e)).length = cpins H cid (rep e) ∧
      sizes (rep e) = (cpins H cid (rep e)).length := by
    intro e he
    obtain ⟨h1, h2, h3⟩ := hrep e he
    have hr := hrs e he
    obtain ⟨w1, w2, w3, w4, w5⟩ := hw (rep e) h1 h2
    rw [h3] at w1 w2 w3 w4
    have hd := hdone (rep e) h1
    rw [hd.size (hen _ hr)] at w2 w5
    rw [hd.first (hen _ hr), hd.arr (hen _ hr)] at w5
    rw [hd.enabled hr.2.1] at w3
    refine ⟨w1, w2, w3, w4, w5, ?_⟩
    rw [hsizes]
    simp only
    rw [if_pos h2, hd.size (hen _ hr)]
  have hpins : ∀ e < psum det.2 H.m, readSeg ne.arr (ne.first e) (ne.size e) = cpins H cid (rep e) := by
    intro e he
    obtain ⟨w1, w2, _, _, w5, _⟩ := hfields e he
    rw [w1, w2, w5]
  -- incident nets
  have hdegf : ∀ (order : List Nat), order.Perm H.nodes → ∀ c,
      ((order.filter (fun v => cid v = c)).map H.hnSize).sum = agg.2 c := by
    intro order ho c
    rw [hagg, (aggregate_spec H cid s.agg c).2]
    exact ((((ho.trans hs.agg.symm)).filter _).map _).sum_eq
  have hcopy : ∀ c < n', readSeg copied.1 (psum agg.2 c) (agg.2 c) =
      (s.copy.filter (fun v => cid v = c)).flatMap H.inc := by
    intro c _
    rw [hcopied]
    exact copyNets_spec H cid (psum agg.2) agg.2 buf.incidentNets s.copy (fun c d h => psum_disj agg.2 h)
      (hdegf s.copy hs.copy) c
  have hdedS := dedupAll_spec (s := s) (n' := n') (deg := agg.2) (nets := copied.1) (size := fun _ => 0)
    (fun c => (s.copy.filter (fun v => cid v = c)).flatMap H.inc) hs.dedup hcopy hs.netInsert hs.netBuckets
  rw [← hded] at hdedS
  have hremS := remapAll_spec (valid := det.2) (n' := n') (deg := agg.2) (order := s.remap) (nets := ded.1)
    (size := ded.2) (fun c => dedupNets s c ((s.copy.filter (fun v => cid v = c)).flatMap H.inc)) hs.remap
    (fun c hc => (hdedS c hc).1) (fun c hc => by rw [(hdedS c hc).2.1]; exact (hdedS c hc).2.2)
  rw [← hrem] at hremS
  have hwn := writeNets_spec (tmp := rem.1) (tmpStart := psum agg.2) (size := rem.2) (out := buf.newIncidentNets)
    (n' := n') (order := s.writeNodes) hs.writeNodes
  have hdd : ∀ c < n', (dedupNets s c ((s.copy.filter (fun v => cid v = c)).flatMap H.inc)).Nodup ∧
      ∀ x, x ∈ dedupNets s c ((s.copy.filter (fun v => cid v = c)).flatMap H.inc) ↔
        ∃ v ∈ H.nodes, cid v = c ∧ x ∈ H.inc v := by
    intro c hc
    have hlen : ((s.copy.filter (fun v => cid v = c)).flatMap H.inc).length = agg.2 c := by
      rw [← hcopy c hc, readSeg_length]
    have := dedupNets_spec (s := s) (c := c) (l := (s.copy.filter (fun v => cid v = c)).flatMap H.inc)
      (by rw [hlen]; exact hs.netInsert c hc) (hs.netBuckets c hc)
    refine ⟨this.1, fun x => ?_⟩
    rw [this.2 x, List.mem_flatMap]
    constructor
    · rintro ⟨v, hv, hx⟩
      rw [List.mem_filter, hs.copy.mem_iff] at hv
      exact ⟨v, hv.1, by simpa using hv.2, hx⟩
    · rintro ⟨v, hv, h2, hx⟩
      exact ⟨v, List.mem_filter.2 ⟨hs.copy.mem_iff.2 hv, by simpa using h2⟩, hx⟩
  have hinc_lt : ∀ c < n', ∀ x ∈ dedupNets s c ((s.copy.filter (fun v => cid v = c)).flatMap H.inc), x < H.m := by
    intro c hc x hx
    obtain ⟨v, hv, _, hx⟩ := ((hdd c hc).2 x).1 hx
    exact hR.inc_lt v hv x hx
  refine ⟨rep, ?_⟩
  refine
    { coarse := hC
      enabledN := fun _ => rfl
      enabledE := fun e he => (hfields e he).2.2.1
      isrep := hrs
      rep_inj := ?_
      rep_onto := ?_
      pins := hpins
      ew := ?_
      nw := ?_
      inc_nodup := ?_
      inc_iff := ?_
      edge_disj := ?_
      edge_bound := ?_
      node_disj := ?_
      node_bound := ?_
      totalDegree := rfl
      totalWeight := rfl
      numPins := ?_
      maxEdgeSize := ?_ }
  · intro e he f hf h
    rw [← (hrep e he).2.2, h, (hrep f hf).2.2]
  · intro id hid
    have hlt : psum det.2 id < psum det.2 H.m :=
      psum_lt_of_pos _ ((hdetS id hid.1).1.2 hid) hid.1
    refine ⟨psum det.2 id, hlt, ?_⟩
    obtain ⟨h1, h2, h3⟩ := hrep _ hlt
    exact psum_inj det.2 h2 ((hdetS id hid.1).1.2 hid) h3
  · intro e he
    show ne.weight e = _
    rw [(hfields e he).2.2.2.1]
    exact (hdetS _ (hrs e he).1).2.2 (hrs e he)
  · intro c _
    show agg.1 c = _
    rw [hagg, (aggregate_spec H cid s.agg c).1]
    exact ((hs.agg.filter _).map _).sum_eq
  · intro c hc
    show (readSeg _ (psum rem.2 c) (rem.2 c)).Nodup
    rw [hwn c hc, (hremS c hc).nodup_iff, List.nodup_map_iff_inj_on ((hdd c hc).1.filter _)]
    intro x hx y hy hxy
    have hx := (List.mem_filter.1 hx).2
    have hy := (List.mem_filter.1 hy).2
    simp only [decide_eq_true_eq] at hx hy
    exact psum_inj det.2 hx hy hxy
  · intro c hc e
    show e ∈ readSeg _ (psum rem.2 c) (rem.2 c) ↔ e < psum det.2 H.m ∧ c ∈ readSeg ne.arr (ne.first e) (ne.size e)
    rw [hwn c hc, (hremS c hc).mem_iff, List.mem_map]
    constructor
    · rintro ⟨id, hid, rfl⟩
      have h1 := (List.mem_filter.1 hid).1
      have h2 := (List.mem_filter.1 hid).2
      simp only [decide_eq_true_eq] at h2
      have hidm := hinc_lt c hc id h1
      have hlt := psum_lt_of_pos det.2 h2 hidm
      refine ⟨hlt, ?_⟩
      have hre : rep (psum det.2 id) = id := by
        obtain ⟨_, g2, g3⟩ := hrep _ hlt
        exact psum_inj det.2 g2 h2 g3
      rw [hpins _ hlt, hre]
      have hrid := (hdetS id hidm).1.1 h2
      have hed : id ∈ H.edges := mem_edges.2 ⟨hidm, hen _ hrid⟩
      rw [mem_cpins hR hC hed]
      obtain ⟨v, hv, hvc, hx⟩ := ((hdd c hc).2 id).1 h1
      exact ⟨v, (hR.inc_iff v hv id hed).1 hx, hv, hvc⟩
    · rintro ⟨hlt, hcp⟩
      rw [hpins _ hlt] at hcp
      have hrid := hrs e hlt
      have hed : rep e ∈ H.edges := mem_edges.2 ⟨hrid.1, hen _ hrid⟩
      rw [mem_cpins hR hC hed] at hcp
      obtain ⟨v, hv, hvn, hvc⟩ := hcp
      refine ⟨rep e, ?_, (hrep e hlt).2.2⟩
      rw [List.mem_filter]
      refine ⟨((hdd c hc).2 _).2 ⟨v, hvn, hvc, (hR.inc_iff v hvn _ hed).2 hv⟩, ?_⟩
      simpa using (hrep e hlt).2.1
  · intro e he f hf hef
    show ne.first e + ne.size e ≤ ne.first f ∨ ne.first f + ne.size f ≤ ne.first e
    obtain ⟨a1, a2, _, _, _, a6⟩ := hfields e he
    obtain ⟨b1, b2, _, _, _, b6⟩ := hfields f hf
    have hne' : rep e ≠ rep f := by
      intro h
      apply hef
      rw [← (hrep e he).2.2, h, (hrep f hf).2.2]
    have := psum_disj sizes hne'
    omega
  · intro e he
    show ne.first e + ne.size e ≤ psum sizes H.m
    obtain ⟨a1, a2, _, _, _, a6⟩ := hfields e he
    have := psum_le_of_lt sizes (hrep e he).1
    omega
  · intro c _ d _ hcd
    exact psum_disj rem.2 hcd
  · intro c hc
    exact psum_le_of_lt rem.2 hc
  · show psum sizes H.m = psum (fun e => (readSeg ne.arr (ne.first e) (ne.size e)).length) (psum det.2 H.m)
    have hx0 : psum sizes H.m = psum (fun i => if i < H.m then sizes i else 0) H.m := by
      apply psum_congr; intro i hi; rw [if_pos hi]
    rw [hx0, hflm _ (Nat.le_refl _)]
    apply psum_flagged fl _ _ hfl01
    · intro i hi
      split
      · rename_i h
        rw [hfleq i h] at hi
        rw [hsizes]; simp only
        rw [if_neg (by omega)]
      · rfl
    · intro i hi hv
      rw [if_pos hi]
      rw [hfleq i hi] at hv
      have hlt := psum_lt_of_pos det.2 hv hi
      rw [← hflm i (by omega), readSeg_length, (hfields _ hlt).2.1]
      have hre : rep (psum det.2 i) = i := by
        obtain ⟨_, g2, g3⟩ := hrep _ hlt
        exact psum_inj det.2 g2 hv g3
      have := (hfields _ hlt).2.2.2.2.2
      rw [hre] at this ⊢
      exact this.symm
  · intro k
    show ne.maxSize ≤ k ↔ ∀ e < psum det.2 H.m, ne.size e ≤ k
    rw [hne, writeEdges_max, ← hne]
    simp only [Nat.zero_le, true_and]
    constructor
    · intro h e he
      obtain ⟨h1, h2, h3⟩ := hrep e he
      have := (hw (rep e) h1 h2).2.1
      rw [h3] at this
      rw [this]
      exact h (rep e) (by rw [hs.writeEdges.mem_iff, List.mem_range]; exact h1) h2
    · intro h id hid hv
      rw [hs.writeEdges.mem_iff, List.mem_range] at hid
      have := h _ (psum_lt_of_pos det.2 hv hid)
      rw [(hw id hid hv).2.1] at this
      exact this

end Verif
