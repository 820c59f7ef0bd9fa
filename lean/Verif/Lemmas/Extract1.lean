import Verif.Spec.Extract
import Verif.Model.Extract
import Verif.Props.C17
/-! Construction of a hypergraph from a well-formed edge vector. -/
namespace Verif
namespace Factory

/-- what `construct` returns for an edge vector without duplicate pins -/
structure Built (H : SHG) (n m : Nat) (ev : Nat → List Nat) (ew nw : Nat → Int) : Prop where
  hn : H.n = n
  hm : H.m = m
  nodes : H.nodes = List.range n
  edges : H.edges = List.range m
  pins : ∀ e < m, H.pins e = ev e
  hnw : H.hnWeight = nw
  hew : H.heWeight = ew
  total : H.totalWeight = ((List.range n).map nw).sum
  wf : H.toHG.WF
  rep : H.Rep
  maxSize : ∀ k, H.maxEdgeSize ≤ k ↔ ∀ e < m, (H.pins e).length ≤ k

variable {n m : Nat} {ev : Nat → List Nat} {ew nw : Nat → Int} {s : FSched n} {arr0 nets0 : Nat → Nat} {stable : Bool}

theorem construct_built (hs : s.Legal m ev) (hn : n ≤ kInvalid) (hnd : ∀ e < m, (ev e).Nodup) (hne : ∀ e < m, ev e ≠ [])
    (hlt : ∀ e < m, ∀ v ∈ ev e, v < n) (hw : ∀ v < n, 0 ≤ nw v) (htot : ((List.range n).map nw).sum ≤ 2147483647) :
    ∃ H, construct n m m ev (some ew) (some nw) stable s arr0 nets0 = some H ∧ Built H n m ev ew nw := by
  have htw := C17_total_weight hw s.reduce
  unfold construct
  rw [if_neg (by simp), if_neg ?_]
  swap
  · intro h
    simp only [List.any_eq_true, List.mem_range, Bool.or_eq_true, decide_eq_true_eq] at h
    obtain ⟨e, he, h | ⟨v, hv, hv2⟩⟩ := h
    · exact hne e he (List.isEmpty_iff.1 h)
    · have := hlt e he v hv; omega
  have hflag : (s.reduce.eval nw).2 = false := by
    cases hc : (s.reduce.eval nw).2 with
    | false => rfl
    | true => have := htw.1.1 hc; omega
  dsimp only
  have hwo : ∀ w : Nat → Int, weightOrOne (some w) = w := fun _ => rfl
  simp only [hwo, hflag, Bool.false_eq_true, if_false]
  refine ⟨_, rfl, ?_⟩
  have hdeg := fun v => netCount_eq (ev := ev) hs.thread v
  obtain ⟨hp, hnn⟩ := writePins_spec hs.pins hdeg { arr := arr0, nets := nets0, cnt := fun _ => 0 } rfl
  have hmax := maxSize_le (ev := ev) hs.thread
  set deg := netCount m ev s.threads s.thread with hdegdef
  set st := s.pins.foldl (writePin ev (psum fun e => (ev e).length) (psum deg))
    { arr := arr0, nets := nets0, cnt := fun _ => 0 } with hst
  set H : SHG :=
    { n := n, m := m
      hnEnabled := fun v => decide (v < n), hnFirst := psum deg, hnSize := deg, hnWeight := nw
      heEnabled := fun e => decide (e < m), heFirst := psum fun e => (ev e).length
      heSize := fun e => (ev e).length
      heWeight := ew
      incidenceArray := st.arr
      incidentNets := if stable = true then sortNets n (psum deg) deg st.nets else st.nets
      totalWeight := (s.reduce.eval nw).1
      numPins := psum (fun e => (ev e).length) m
      totalDegree := psum deg n
      maxEdgeSize := maxSize m ev s.threads s.thread } with hH
  have hpins : ∀ e < m, H.pins e = ev e := fun e he => hp e he
  have hnodes : H.nodes = List.range n := by
    show (List.range n).filter (fun v => decide (v < n)) = _
    rw [List.filter_eq_self]; intro v hv; simpa using hv
  have hedges : H.edges = List.range m := by
    show (List.range m).filter (fun v => decide (v < m)) = _
    rw [List.filter_eq_self]; intro v hv; simpa using hv
  have hraw : ∀ v, ((s.pins.filter (fun p => decide (pinAt ev p = v))).map Prod.fst).Nodup ∧
      ∀ e, e ∈ (s.pins.filter (fun p => decide (pinAt ev p = v))).map Prod.fst ↔ e < m ∧ v ∈ ev e := by
    intro v
    constructor
    · refine List.Nodup.map_on ?_ ((hs.pins.nodup_iff.2 (allPins_nodup _ _)).filter _)
      intro p hp q hq hpq
      rw [List.mem_filter] at hp hq
      obtain ⟨hp1, hp2⟩ := hp
      obtain ⟨hq1, hq2⟩ := hq
      have hpm := mem_allPins.1 (hs.pins.mem_iff.1 hp1)
      have hqm := mem_allPins.1 (hs.pins.mem_iff.1 hq1)
      simp only [decide_eq_true_eq] at hp2 hq2
      refine Prod.ext hpq ?_
      have hinj : (ev p.1).Nodup := hnd _ hpm.1
      have : (ev p.1).getD p.2 0 = (ev p.1).getD q.2 0 := by
        have h1 : (ev p.1).getD p.2 0 = v := hp2
        have h2 : (ev q.1).getD q.2 0 = v := hq2
        rw [← hpq] at h2
        rw [h1, h2]
      rw [← hpq] at hqm
      rw [List.getD_eq_getElem _ _ hpm.2, List.getD_eq_getElem _ _ hqm.2] at this
      exact (hinj.getElem_inj_iff).1 this
    · intro e
      rw [List.mem_map]
      constructor
      · rintro ⟨p, hp, rfl⟩
        rw [List.mem_filter, decide_eq_true_eq] at hp
        have hpm := mem_allPins.1 (hs.pins.mem_iff.1 hp.1)
        refine ⟨hpm.1, ?_⟩
        have h2 : (ev p.1).getD p.2 0 = v := hp.2
        rw [← h2, List.getD_eq_getElem _ _ hpm.2]
        exact List.getElem_mem _
      · rintro ⟨he, hv⟩
        obtain ⟨i, hi, rfl⟩ := List.getElem_of_mem hv
        refine ⟨(e, i), List.mem_filter.2 ⟨hs.pins.mem_iff.2 (mem_allPins.2 ⟨he, hi⟩), ?_⟩, rfl⟩
        rw [decide_eq_true_eq]
        show (ev e).getD i 0 = _
        rw [List.getD_eq_getElem _ _ hi]
  have hinc : ∀ v < n, (H.inc v).Nodup ∧ ∀ e, e ∈ H.inc v ↔ e < m ∧ v ∈ ev e := by
    intro v hv
    show (readSeg (if stable = true then sortNets n (psum deg) deg st.nets else st.nets) (psum deg v) (deg v)).Nodup ∧
      ∀ e, e ∈ readSeg (if stable = true then sortNets n (psum deg) deg st.nets else st.nets) (psum deg v) (deg v) ↔ _
    cases stable
    · rw [if_neg (by simp), hnn v]; exact hraw v
    · rw [if_pos rfl, sortNets_spec v hv, hnn v]
      exact ⟨(sortIds_perm _).nodup_iff.2 (hraw v).1, fun e => by rw [mem_sortIds]; exact (hraw v).2 e⟩
  have hwf : H.toHG.WF := by
    refine ⟨?_, ?_, ?_, ?_, ?_, ?_⟩
    · show H.nodes.Nodup
      rw [hnodes]; exact List.nodup_range
    · show H.edges.Nodup
      rw [hedges]; exact List.nodup_range
    · intro e he v hv
      have he : e ∈ H.edges := he
      have hv : v ∈ H.pins e := hv
      show v ∈ H.nodes
      rw [hedges, List.mem_range] at he
      rw [hnodes, List.mem_range]
      rw [hpins e he] at hv
      exact hlt e he v hv
    · intro e he
      have he : e ∈ H.edges := he
      rw [hedges, List.mem_range] at he
      show (H.pins e).Nodup
      rw [hpins e he]; exact hnd e he
    · intro v hv
      have hv : v ∈ H.nodes := hv
      rw [hnodes, List.mem_range] at hv
      exact (hinc v hv).1
    · intro v hv e
      have hv : v ∈ H.nodes := hv
      rw [hnodes, List.mem_range] at hv
      show e ∈ H.inc v ↔ e ∈ H.edges ∧ v ∈ H.pins e
      rw [(hinc v hv).2, hedges, List.mem_range]
      constructor
      · rintro ⟨h1, h2⟩; exact ⟨h1, by rw [hpins e h1]; exact h2⟩
      · rintro ⟨h1, h2⟩; exact ⟨h1, by rw [hpins e h1] at h2; exact h2⟩
  have hpl : ∀ e, (H.pins e).length = (ev e).length := fun e => readSeg_length _ _ _
  refine ⟨rfl, rfl, hnodes, hedges, hpins, rfl, rfl, htw.2 hflag, hwf, ?_, ?_⟩
  · refine ⟨hn, ?_, ?_, ?_, ?_⟩
    · intro e he v hv
      have := hwf.pins_mem e he v hv
      have : v ∈ H.nodes := this
      rw [hnodes, List.mem_range] at this
      exact this
    · intro e _ f _ hne
      exact psum_disj (fun e => (ev e).length) hne
    · intro v hv e he
      have := ((hwf.inc_iff v hv e).1 he).1
      have : e ∈ H.edges := this
      rw [hedges, List.mem_range] at this
      exact this
    · intro v hv e he
      exact (hwf.inc_iff v hv e).trans ⟨fun h => h.2, fun h => ⟨he, h⟩⟩
  · intro k; simp only [hpl]; exact hmax k

end Factory
end Verif
