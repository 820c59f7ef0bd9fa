import Verif.Lemmas.Segments
/-! Lemmas about the stages 1, 2a and 3 of the contraction: coarse ids, contracted pins, parallel nets. -/
namespace Verif
open SMap (wr)
open Contract

/-! ### 0/1 prefix sums enumerate the ones -/

theorem psum_lt_of_pos (x : Nat → Nat) {i j : Nat} (hi : 0 < x i) (h : i < j) : psum x i < psum x j := by
  have := psum_le_of_lt x h
  omega

theorem psum_inj (x : Nat → Nat) {i j : Nat} (hi : 0 < x i) (hj : 0 < x j) (h : psum x i = psum x j) :
    i = j := by
  rcases Nat.lt_trichotomy i j with h1 | h1 | h1
  · have := psum_lt_of_pos x hi h1; omega
  · exact h1
  · have := psum_lt_of_pos x hj h1; omega

theorem psum_surj (x : Nat → Nat) (h01 : ∀ i, x i ≤ 1) {n c : Nat} (h : c < psum x n) :
    ∃ i < n, 0 < x i ∧ psum x i = c := by
  induction n with
  | zero => simp [psum_zero] at h
  | succ n ih =>
    by_cases hc : c < psum x n
    · obtain ⟨i, hi, h1, h2⟩ := ih hc
      exact ⟨i, by omega, h1, h2⟩
    · rw [psum_succ] at h
      have := h01 n
      exact ⟨n, by omega, by omega, by omega⟩

theorem psum_le_n (x : Nat → Nat) (h01 : ∀ i, x i ≤ 1) (n : Nat) : psum x n ≤ n := by
  induction n with
  | zero => simp [psum_zero]
  | succ n ih => rw [psum_succ]; have := h01 n; omega

/-! ### Stage 1 -/

theorem mapping_spec (com : Nat → Nat) (order : List Nat) (x : Nat) :
    mapping com order x = if ∃ v ∈ order, com v = x then 1 else 0 := by
  unfold mapping
  suffices H : ∀ (order : List Nat) (f : Nat → Nat),
      (order.foldl (fun mp hn => wr mp (com hn) 1) f) x = if ∃ v ∈ order, com v = x then 1 else f x from H order _
  intro order
  induction order with
  | nil => intro f; simp
  | cons a order ih =>
    intro f
    rw [List.foldl_cons, ih]
    by_cases h : ∃ v ∈ order, com v = x
    · rw [if_pos h, if_pos]
      obtain ⟨v, hv, e⟩ := h
      exact ⟨v, by simp [hv], e⟩
    · rw [if_neg h]
      by_cases ha : com a = x
      · rw [if_pos ⟨a, by simp, ha⟩, ← ha, wr_same]
      · rw [wr_other _ _ (fun h => ha h.symm), if_neg]
        rintro ⟨v, hv, e⟩
        rcases List.mem_cons.1 hv with h1 | h1
        · exact ha (h1 ▸ e)
        · exact h ⟨v, h1, e⟩

theorem mapping_01 (com : Nat → Nat) (order : List Nat) (x : Nat) : mapping com order x ≤ 1 := by
  rw [mapping_spec]; split <;> omega

theorem mem_nodes {H : SHG} {v : Nat} : v ∈ H.nodes ↔ v < H.n ∧ H.hnEnabled v = true := by
  simp [SHG.nodes]

theorem mem_edges {H : SHG} {e : Nat} : e ∈ H.edges ↔ e < H.m ∧ H.heEnabled e = true := by
  simp [SHG.edges]

/-- Facts about the map to coarse ids. -/
structure CoarseSpec (H : SHG) (com cid : Nat → Nat) (n' : Nat) : Prop where
  lt : ∀ v ∈ H.nodes, cid v < n'
  same : ∀ v ∈ H.nodes, ∀ w ∈ H.nodes, cid v = cid w ↔ com v = com w
  onto : ∀ c < n', ∃ v ∈ H.nodes, cid v = c
  le : n' ≤ H.n
  disabled : ∀ v, H.hnEnabled v = false → cid v = kInvalid

theorem coarse_spec {H : SHG} {com : Nat → Nat} {order : List Nat} (ho : order.Perm H.nodes)
    (hc : ∀ v ∈ H.nodes, com v < H.n) :
    CoarseSpec H com (coarse H com (mapping com order)) (psum (mapping com order) H.n) := by
  have hone : ∀ v ∈ H.nodes, 0 < mapping com order (com v) := by
    intro v hv
    rw [mapping_spec, if_pos ⟨v, ho.mem_iff.2 hv, rfl⟩]
    exact Nat.one_pos
  have hcid : ∀ v ∈ H.nodes, coarse H com (mapping com order) v = psum (mapping com order) (com v) := by
    intro v hv
    unfold coarse
    rw [if_pos (mem_nodes.1 hv).2]
  refine ⟨?_, ?_, ?_, psum_le_n _ (mapping_01 com order) _, ?_⟩
  · intro v hv
    rw [hcid v hv]
    exact psum_lt_of_pos _ (hone v hv) (hc v hv)
  · intro v hv w hw
    rw [hcid v hv, hcid w hw]
    constructor
    · exact psum_inj _ (hone v hv) (hone w hw)
    · intro h; rw [h]
  · intro c hlt
    obtain ⟨i, _, h1, h2⟩ := psum_surj _ (mapping_01 com order) hlt
    rw [mapping_spec] at h1
    split at h1
    · rename_i h
      obtain ⟨v, hv, e⟩ := h
      have hv' := ho.mem_iff.1 hv
      exact ⟨v, hv', by rw [hcid v hv', e, h2]⟩
    · omega
  · intro v hv
    unfold coarse
    rw [if_neg (by simp [hv])]

theorem aggregate_spec (H : SHG) (cid : Nat → Nat) (order : List Nat) (c : Nat) :
    (aggregate H cid order).1 c = ((order.filter (fun v => cid v = c)).map H.hnWeight).sum ∧
    (aggregate H cid order).2 c = ((order.filter (fun v => cid v = c)).map H.hnSize).sum := by
  unfold aggregate
  suffices G : ∀ (order : List Nat) (st : (Nat → Int) × (Nat → Nat)),
      (order.foldl (fun st hn => (wr st.1 (cid hn) (st.1 (cid hn) + H.hnWeight hn),
        wr st.2 (cid hn) (st.2 (cid hn) + H.hnSize hn))) st).1 c =
        st.1 c + ((order.filter (fun v => cid v = c)).map H.hnWeight).sum ∧
      (order.foldl (fun st hn => (wr st.1 (cid hn) (st.1 (cid hn) + H.hnWeight hn),
        wr st.2 (cid hn) (st.2 (cid hn) + H.hnSize hn))) st).2 c =
        st.2 c + ((order.filter (fun v => cid v = c)).map H.hnSize).sum by
    have := G order (fun _ => 0, fun _ => 0)
    simpa using this
  intro order
  induction order with
  | nil => intro st; simp
  | cons a order ih =>
    intro st
    rw [List.foldl_cons]
    obtain ⟨h1, h2⟩ := ih (wr st.1 (cid a) (st.1 (cid a) + H.hnWeight a), wr st.2 (cid a) (st.2 (cid a) + H.hnSize a))
    rw [h1, h2]
    by_cases ha : cid a = c
    · subst ha
      simp only [wr_same, List.filter_cons, decide_true, if_true, List.map_cons, List.sum_cons]
      constructor
      · omega
      · omega
    · simp only [wr_other _ _ (fun h : c = cid a => ha h.symm), List.filter_cons, ha, decide_false]
      simp

/-! ### Stage 2a -/

/-- Contracted pins of hyperedge `e`: what the code leaves in the temporary buffer. -/
def cpins (H : SHG) (cid : Nat → Nat) (e : Nat) : List Nat :=
  stripInvalid (uniq (sortIds ((H.pins e).map cid)))

/-- Representation invariant of a `StaticHypergraph` that may be contracted. -/
structure SHG.Rep (H : SHG) : Prop where
  small : H.n ≤ kInvalid
  pins_lt : ∀ e ∈ H.edges, ∀ v ∈ H.pins e, v < H.n
  edge_disj : ∀ e ∈ H.edges, ∀ f ∈ H.edges, e ≠ f →
    H.heFirst e + H.heSize e ≤ H.heFirst f ∨ H.heFirst f + H.heSize f ≤ H.heFirst e
  inc_lt : ∀ v ∈ H.nodes, ∀ e ∈ H.inc v, e < H.m
  inc_iff : ∀ v ∈ H.nodes, ∀ e ∈ H.edges, e ∈ H.inc v ↔ v ∈ H.pins e

theorem cpins_sorted (H : SHG) (cid : Nat → Nat) (e : Nat) : (cpins H cid e).Pairwise (· < ·) := by
  unfold cpins
  exact (uniq_sorted (sortIds_sorted _)).sublist (stripInvalid_prefix _).sublist

theorem mem_cpins {H : SHG} {com cid : Nat → Nat} {n' e c : Nat} (hR : H.Rep)
    (hC : CoarseSpec H com cid n') (he : e ∈ H.edges) :
    c ∈ cpins H cid e ↔ ∃ v ∈ H.pins e, v ∈ H.nodes ∧ cid v = c := by
  unfold cpins
  have hle := hC.le
  have hsm := hR.small
  have hb : ∀ x ∈ uniq (sortIds ((H.pins e).map cid)), x ≤ kInvalid := by
    intro x hx
    rw [mem_uniq, mem_sortIds, List.mem_map] at hx
    obtain ⟨v, hv, rfl⟩ := hx
    by_cases hen : H.hnEnabled v = true
    · have := hC.lt v (mem_nodes.2 ⟨hR.pins_lt e he v hv, hen⟩)
      omega
    · exact Nat.le_of_eq (hC.disabled v (by simpa using hen))
  refine Iff.trans (mem_stripInvalid (uniq_sorted (sortIds_sorted _)) hb) ?_
  rw [mem_uniq, mem_sortIds, List.mem_map]
  constructor
  · rintro ⟨⟨v, hv, rfl⟩, hne⟩
    refine ⟨v, hv, ?_, rfl⟩
    refine mem_nodes.2 ⟨hR.pins_lt e he v hv, ?_⟩
    by_contra hen
    exact hne (hC.disabled v (by simpa using hen))
  · rintro ⟨v, hv, hn, rfl⟩
    refine ⟨⟨v, hv, rfl⟩, ?_⟩
    have := hC.lt v hn
    omega

/-- bucket of a contracted hyperedge -/
def bucketOf (lb : Nat) (l : List Nat) : Nat := footprint l &&& (2 ^ lb - 1)

theorem bucketOf_lt (lb : Nat) (l : List Nat) : bucketOf lb l < 2 ^ lb := by
  unfold bucketOf
  have h : (0:Nat) < 2 ^ lb := Nat.two_pow_pos lb
  have : footprint l &&& (2 ^ lb - 1) ≤ 2 ^ lb - 1 := Nat.and_le_right
  omega

/-- candidates: enabled hyperedges with at least two contracted pins -/
def cand (H : SHG) (cid : Nat → Nat) (e : Nat) : Bool :=
  H.heEnabled e && decide ((cpins H cid e).length > 1)

def infoOf (H : SHG) (cid : Nat → Nat) (e : Nat) : CInfo :=
  { he := e, hash := footprint (cpins H cid e), size := (cpins H cid e).length, valid := true }

theorem cpins_take (H : SHG) (cid : Nat → Nat) (e : Nat) :
    (uniq (sortIds ((H.pins e).map cid))).take (cpins H cid e).length = cpins H cid e :=
  (List.prefix_iff_eq_take.1 (stripInvalid_prefix _)).symm

theorem cpins_length_le (H : SHG) (cid : Nat → Nat) (e : Nat) :
    (cpins H cid e).length ≤ (uniq (sortIds ((H.pins e).map cid))).length :=
  (stripInvalid_prefix _).length_le

theorem uniq_len (H : SHG) (cid : Nat → Nat) (e : Nat) :
    (uniq (sortIds ((H.pins e).map cid))).length ≤ H.heSize e := by
  refine (uniq_length_le _).trans ?_
  rw [(sortIds_perm _).length_eq, List.length_map, SHG.pins, readSeg_length]

theorem sorted_len (H : SHG) (cid : Nat → Nat) (e : Nat) :
    (sortIds ((H.pins e).map cid)).length = H.heSize e := by
  rw [(sortIds_perm _).length_eq, List.length_map, SHG.pins, readSeg_length]

/-- Content of the temporary buffers for hyperedge `e` after it has been contracted. -/
structure EdgeDone (H : SHG) (cid : Nat → Nat) (e : Nat) (st : EdgeSt) : Prop where
  first : H.heEnabled e = true → st.first e = H.heFirst e
  size : H.heEnabled e = true → st.size e = (cpins H cid e).length
  arr : H.heEnabled e = true → readSeg st.arr (H.heFirst e) (cpins H cid e).length = cpins H cid e
  enabled : cand H cid e = true → st.enabled e = true
  weight : H.heEnabled e = true → st.weight e = H.heWeight e
  valid : st.valid e = if cand H cid e then 1 else 0

/-- `contractEdge` with the contracted pins named -/
theorem contractEdge_eq (H : SHG) (cid : Nat → Nat) (lb : Nat) (st : EdgeSt) (e : Nat) :
    contractEdge H cid lb st e =
      if H.heEnabled e then
        { arr := writeSeg (writeSeg st.arr (H.heFirst e) (sortIds ((H.pins e).map cid))) (H.heFirst e)
            (uniq (sortIds ((H.pins e).map cid)))
          first := wr st.first e (H.heFirst e)
          size := wr st.size e (cpins H cid e).length
          enabled := if (cpins H cid e).length > 1 then wr st.enabled e true
            else wr (wr st.enabled e true) e false
          weight := wr st.weight e (H.heWeight e)
          valid := if (cpins H cid e).length > 1 then wr st.valid e 1 else wr (wr st.valid e 1) e 0
          bucket := if (cpins H cid e).length > 1 then
              wr st.bucket (bucketOf lb (cpins H cid e))
                (st.bucket (bucketOf lb (cpins H cid e)) ++ [infoOf H cid e])
            else st.bucket }
      else { st with valid := wr st.valid e 0 } := by
  unfold contractEdge
  by_cases hen : H.heEnabled e = true
  · rw [if_pos hen, if_pos hen]
    have hr : readSeg (writeSeg (writeSeg st.arr (H.heFirst e) (sortIds ((H.pins e).map cid))) (H.heFirst e)
        (uniq (sortIds ((H.pins e).map cid)))) (H.heFirst e) (cpins H cid e).length = cpins H cid e := by
      rw [readSeg_writeSeg_take (cpins_length_le H cid e), cpins_take]
    by_cases hl : (cpins H cid e).length > 1
    · simp only [hl, if_true]
      have hl' := hl
      unfold cpins SHG.pins at hl' hr
      simp only [hl', if_true]
      simp only [infoOf, bucketOf, cpins, SHG.pins, hr]
    · simp only [hl, if_false]
      have hl' := hl
      unfold cpins SHG.pins at hl'
      simp only [hl', if_false]
      simp only [cpins, SHG.pins]
  · rw [if_neg hen, if_neg hen]

theorem contractEdge_done (H : SHG) (cid : Nat → Nat) (lb : Nat) (st : EdgeSt) (e : Nat) :
    EdgeDone H cid e (contractEdge H cid lb st e) := by
  rw [contractEdge_eq]
  by_cases hen : H.heEnabled e = true
  · rw [if_pos hen]
    refine ⟨fun _ => wr_same _ _ _, fun _ => wr_same _ _ _, fun _ => ?_, fun h => ?_, fun _ => wr_same _ _ _, ?_⟩
    · show readSeg (writeSeg (writeSeg st.arr (H.heFirst e) (sortIds ((H.pins e).map cid))) (H.heFirst e)
        (uniq (sortIds ((H.pins e).map cid)))) (H.heFirst e) (cpins H cid e).length = cpins H cid e
      rw [readSeg_writeSeg_take (cpins_length_le H cid e), cpins_take]
    · unfold cand at h
      simp only [Bool.and_eq_true, decide_eq_true_eq] at h
      show (if (cpins H cid e).length > 1 then wr st.enabled e true
            else wr (wr st.enabled e true) e false) e = true
      rw [if_pos h.2, wr_same]
    · show (if (cpins H cid e).length > 1 then wr st.valid e 1 else wr (wr st.valid e 1) e 0) e = _
      unfold cand
      rw [hen]
      by_cases hl : (cpins H cid e).length > 1
      · simp [hl, wr_same]
      · simp [hl, wr_same]
  · rw [if_neg hen]
    refine ⟨fun h => absurd h hen, fun h => absurd h hen, fun h => absurd h hen, fun h => ?_,
      fun h => absurd h hen, ?_⟩
    · unfold cand at h
      simp only [Bool.and_eq_true] at h
      exact absurd h.1 hen
    · show wr st.valid e 0 e = _
      simp [cand, hen, wr_same]

theorem contractEdge_frame {H : SHG} (hR : H.Rep) (cid : Nat → Nat) (lb : Nat) (st : EdgeSt) {e f : Nat}
    (he : e < H.m) (hf : f < H.m) (hne : f ≠ e) (h : EdgeDone H cid f st) :
    EdgeDone H cid f (contractEdge H cid lb st e) := by
  rw [contractEdge_eq]
  by_cases hen : H.heEnabled e = true
  · rw [if_pos hen]
    refine ⟨fun h1 => ?_, fun h1 => ?_, fun h1 => ?_, fun h1 => ?_, fun h1 => ?_, ?_⟩
    · exact (wr_other _ _ hne).trans (h.first h1)
    · exact (wr_other _ _ hne).trans (h.size h1)
    · have hd := hR.edge_disj e (mem_edges.2 ⟨he, hen⟩) f (mem_edges.2 ⟨hf, h1⟩) (fun h => hne h.symm)
      have hlf := (cpins_length_le H cid f).trans (uniq_len H cid f)
      have hle := uniq_len H cid e
      have hls := sorted_len H cid e
      show readSeg (writeSeg (writeSeg st.arr (H.heFirst e) (sortIds ((H.pins e).map cid))) (H.heFirst e)
        (uniq (sortIds ((H.pins e).map cid)))) (H.heFirst f) (cpins H cid f).length = cpins H cid f
      rw [readSeg_writeSeg_disj (by omega), readSeg_writeSeg_disj (by omega)]
      exact h.arr h1
    · show (if (cpins H cid e).length > 1 then wr st.enabled e true
            else wr (wr st.enabled e true) e false) f = true
      split
      · rw [wr_other _ _ hne]; exact h.enabled h1
      · rw [wr_other _ _ hne, wr_other _ _ hne]; exact h.enabled h1
    · exact (wr_other _ _ hne).trans (h.weight h1)
    · show (if (cpins H cid e).length > 1 then wr st.valid e 1 else wr (wr st.valid e 1) e 0) f = _
      split
      · rw [wr_other _ _ hne]; exact h.valid
      · rw [wr_other _ _ hne, wr_other _ _ hne]; exact h.valid
  · rw [if_neg hen]
    exact ⟨h.first, h.size, h.arr, h.enabled, h.weight, (wr_other _ _ hne).trans h.valid⟩

theorem contractEdges_done {H : SHG} (hR : H.Rep) (cid : Nat → Nat) (lb : Nat) (buf : CBuf)
    {order : List Nat} (ho : order.Perm (List.range H.m)) :
    ∀ e < H.m, EdgeDone H cid e (contractEdges H cid lb buf order) := by
  intro e he
  unfold contractEdges
  have hmem : ∀ x, x ∈ order ↔ x < H.m := fun x => by rw [ho.mem_iff, List.mem_range]
  apply foldl_local (contractEdge H cid lb) (fun _ _ => True) (fun e st => EdgeDone H cid e st) order
  · exact ho.nodup_iff.2 List.nodup_range
  · intro s c _ _; exact contractEdge_done H cid lb s c
  · intros; trivial
  · intro s c d hc hd hne h
    exact contractEdge_frame hR cid lb s ((hmem c).1 hc) ((hmem d).1 hd) hne h
  · intros; trivial
  · exact (hmem e).2 he

theorem contractEdges_bucket (H : SHG) (cid : Nat → Nat) (lb : Nat) (buf : CBuf) (order : List Nat) (b : Nat) :
    (contractEdges H cid lb buf order).bucket b =
      (order.filter (fun e => cand H cid e && decide (bucketOf lb (cpins H cid e) = b))).map (infoOf H cid) := by
  unfold contractEdges
  suffices G : ∀ (order : List Nat) (st : EdgeSt), (order.foldl (contractEdge H cid lb) st).bucket b =
      st.bucket b ++ (order.filter (fun e => cand H cid e && decide (bucketOf lb (cpins H cid e) = b))).map
        (infoOf H cid) by
    rw [G]; rfl
  intro order
  induction order with
  | nil => intro st; simp
  | cons a order ih =>
    intro st
    rw [List.foldl_cons, ih, contractEdge_eq]
    by_cases hen : H.heEnabled a = true
    · rw [if_pos hen]
      by_cases hl : (cpins H cid a).length > 1
      · have hc : cand H cid a = true := by simp [cand, hen, hl]
        by_cases hb : bucketOf lb (cpins H cid a) = b
        · simp only [hl, if_true, List.filter_cons, hc, hb, decide_true, Bool.and_self, List.map_cons, wr_same,
            List.append_assoc, List.cons_append, List.nil_append]
        · simp only [hl, if_true, List.filter_cons, hc, hb, decide_false, Bool.and_false,
            wr_other _ _ (fun h : b = bucketOf lb (cpins H cid a) => hb h.symm)]
          simp
      · have hc : cand H cid a = false := by simp [cand, hl]
        simp only [hl, if_false, List.filter_cons, hc, Bool.false_and]
        simp
    · rw [if_neg hen]
      have hc : cand H cid a = false := by simp [cand, hen]
      simp only [List.filter_cons, hc, Bool.false_and]
      simp

end Verif
