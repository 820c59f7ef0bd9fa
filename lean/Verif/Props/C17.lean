import Verif.Lemmas.Factory
import Verif.Lemmas.Contract1
import Mathlib.Algebra.BigOperators.Group.List.Basic
/-!
# C17: construction stores exactly the given hypergraph

`n`, `m`, `idx`, `pins`, `ew`, `nw` are the arguments of `mt_kahypar_create_hypergraph`: the input
pins of hyperedge `e` are `pins[idx[e]], …, pins[idx[e+1]-1]`.  `s` is an arbitrary legal schedule of
the parallel construction, `arr0`/`nets0` the uninitialised memory of the adjacency arrays.
-/
namespace Verif
open Factory

/-- the input pins of hyperedge `e`, as given -/
def inputPins (idx pins : Nat → Nat) (e : Nat) : List Nat :=
  (List.range (idx (e + 1) - idx e)).map (fun i => pins (idx e + i))

/-- weights default to one -/
def weightsOf (w : Option (Nat → Int)) : Nat → Int := fun i => (w.map (fun f => f i)).getD 1

/-- The inputs the interface has to reject. -/
inductive BadInput (n m : Nat) (idx pins : Nat → Nat) (nw : Option (Nat → Int)) : Prop
  /-- the number of nodes or hyperedges does not fit the id type -/
  | size : n > 4294967295 ∨ m > 4294967295 → BadInput n m idx pins nw
  /-- the index array does not start with 0 -/
  | start : idx 0 ≠ 0 → BadInput n m idx pins nw
  /-- the index array descends -/
  | descending (e : Nat) : e < m → idx (e + 1) < idx e → BadInput n m idx pins nw
  /-- an index difference is zero: empty hyperedge -/
  | empty (e : Nat) : e < m → idx (e + 1) = idx e → BadInput n m idx pins nw
  /-- a hyperedge lists more pins than there are nodes -/
  | long (e : Nat) : e < m → idx e + n < idx (e + 1) → BadInput n m idx pins nw
  /-- a pin is not a node -/
  | pin (e i : Nat) : e < m → idx e ≤ i → i < idx (e + 1) → n ≤ pins i → BadInput n m idx pins nw
  /-- the total node weight exceeds the largest 32-bit weight -/
  | weight : ((List.range n).map (weightsOf nw)).sum > 2147483647 → BadInput n m idx pins nw

section
variable {n m : Nat} {idx pins : Nat → Nat} {ew nw : Option (Nat → Int)} {s : FSched n} {arr0 nets0 : Nat → Nat}

theorem weightsOf_eq (w : Option (Nat → Int)) : weightOrOne w = weightsOf w := by
  cases w <;> rfl

theorem readSeg_eq_inputPins (e : Nat) : readSeg pins (idx e) (idx (e + 1) - idx e) = inputPins idx pins e := rfl

theorem mem_edgeVector {e v : Nat} : v ∈ edgeVector idx pins e ↔ v ∈ inputPins idx pins e := by
  unfold edgeVector
  rw [dedupPins_eq, mem_uniq, mem_sortIds, readSeg_eq_inputPins]

theorem edgeVector_sorted (e : Nat) : (edgeVector idx pins e).Pairwise (· < ·) := by
  unfold edgeVector
  rw [dedupPins_eq]
  exact uniq_sorted (sortIds_sorted _)

theorem mem_inputPins {e v : Nat} : v ∈ inputPins idx pins e ↔ ∃ i, idx e ≤ i ∧ i < idx (e + 1) ∧ pins i = v := by
  simp only [inputPins, List.mem_map, List.mem_range]
  constructor
  · rintro ⟨i, hi, rfl⟩; exact ⟨idx e + i, by omega, by omega, rfl⟩
  · rintro ⟨i, h1, h2, rfl⟩; exact ⟨i - idx e, by omega, by rw [show idx e + (i - idx e) = i by omega]⟩

/-- For every reduction tree and all non-negative weights, the parallel sum reports an overflow iff
the total weight exceeds `2^31 - 1`, and otherwise returns the exact total. -/
theorem C17_total_weight {w : Nat → Int} (hw : ∀ v < n, 0 ≤ w v) (r : Reduce 0 n) :
    ((r.eval w).2 = true ↔ ((List.range n).map w).sum > 2147483647) ∧
    ((r.eval w).2 = false → (r.eval w).1 = ((List.range n).map w).sum) := by
  have h := r.eval_ok (w := w) (fun v _ hv => hw v hv)
  have hs : wsumRange w 0 n = ((List.range n).map w).sum := by
    simp [wsumRange, List.range_eq_range']
  rw [hs] at h
  refine ⟨⟨h.over, ?_⟩, fun hf => (h.exact hf).1⟩
  intro hgt
  cases hc : (r.eval w).2 with
  | true => rfl
  | false =>
    have := (h.exact hc).2
    unfold maxWeight at this
    omega

/-- The call is rejected exactly on the bad inputs, whatever the schedule. -/
theorem C17_rejects_iff (hw : ∀ v < n, 0 ≤ weightsOf nw v) :
    createHypergraph n m idx pins ew nw s arr0 nets0 = none ↔ BadInput n m idx pins nw := by
  have hk : kInvalid = 4294967295 := rfl
  unfold createHypergraph
  by_cases h1 : n > kInvalid ∨ m > kInvalid
  · rw [if_pos h1]
    exact ⟨fun _ => .size h1, fun _ => rfl⟩
  rw [if_neg h1]
  by_cases h2 : idx 0 ≠ 0
  · rw [if_pos h2]
    exact ⟨fun _ => .start h2, fun _ => rfl⟩
  rw [if_neg h2]
  split
  · rename_i h3
    refine ⟨fun _ => ?_, fun _ => rfl⟩
    simp only [List.any_eq_true, List.mem_range, Bool.or_eq_true, decide_eq_true_eq] at h3
    obtain ⟨e, he, h3⟩ := h3
    rcases h3 with (h3 | h3) | h3
    · exact .descending e he h3
    · exact .long e he (by omega)
    · obtain ⟨v, hv, hv2⟩ := h3
      rw [readSeg_eq_inputPins, mem_inputPins] at hv
      obtain ⟨i, hi1, hi2, rfl⟩ := hv
      exact .pin e i he hi1 hi2 (by omega)
  · rename_i h3
    have h3' : ∀ e < m, idx e ≤ idx (e + 1) ∧ idx (e + 1) - idx e ≤ n := by
      intro e he
      have := h3
      simp only [List.any_eq_true, List.mem_range, Bool.or_eq_true, decide_eq_true_eq, not_exists, not_and, not_or] at this
      have := this e he
      omega
    unfold construct
    rw [if_neg (by simp)]
    split
    · rename_i h4
      refine ⟨fun _ => ?_, fun _ => rfl⟩
      simp only [List.any_eq_true, List.mem_range, Bool.or_eq_true, decide_eq_true_eq] at h4
      obtain ⟨e, he, h4⟩ := h4
      rcases h4 with h4 | ⟨v, hv, hv2⟩
      · refine .empty e he ?_
        by_contra hne
        have : pins (idx e) ∈ edgeVector idx pins e := by
          rw [mem_edgeVector, mem_inputPins]
          exact ⟨idx e, Nat.le_refl _, by have := h3' e he; omega, rfl⟩
        rw [List.isEmpty_iff] at h4
        rw [h4] at this
        simp at this
      · rw [mem_edgeVector, mem_inputPins] at hv
        obtain ⟨i, hi1, hi2, rfl⟩ := hv
        exact .pin e i he hi1 hi2 hv2
    · rename_i h4
      have htw := C17_total_weight hw s.reduce
      simp only [weightsOf_eq]
      split
      · rename_i h5
        exact ⟨fun _ => .weight (htw.1.1 h5), fun _ => rfl⟩
      · rename_i h5
        refine ⟨fun h => by simp at h, ?_⟩
        intro hb
        exfalso
        cases hb with
        | size h => exact h1 h
        | start h => exact h2 h
        | descending e he h => have := h3' e he; omega
        | empty e he h =>
          apply h4
          simp only [List.any_eq_true, List.mem_range, Bool.or_eq_true]
          refine ⟨e, he, Or.inl ?_⟩
          rw [List.isEmpty_iff, List.eq_nil_iff_forall_not_mem]
          intro v hv
          rw [mem_edgeVector, mem_inputPins] at hv
          obtain ⟨i, _, _, _⟩ := hv
          omega
        | long e he h => have := h3' e he; omega
        | pin e i he hi1 hi2 h =>
          apply h4
          simp only [List.any_eq_true, List.mem_range, Bool.or_eq_true, decide_eq_true_eq]
          exact ⟨e, he, Or.inr ⟨pins i, mem_edgeVector.2 (mem_inputPins.2 ⟨i, hi1, hi2, rfl⟩), h⟩⟩
        | weight h => exact h5 (htw.1.2 h)

theorem sum_count_range (n : Nat) (l : List Nat) (h : ∀ x ∈ l, x < n) :
    ((List.range n).map (fun v => l.count v)).sum = l.length := by
  induction l with
  | nil => simp
  | cons a l ih =>
    have ha := h a (by simp)
    have e : (fun v => (a :: l).count v) = fun v => l.count v + (if a = v then 1 else 0) := by
      funext v; rw [List.count_cons]; simp
    rw [e, sum_map_add, ih (fun x hx => h x (by simp [hx])), sum_indicator, if_pos ha, List.length_cons]

theorem sum_deg_eq_sum_size (n m : Nat) (ev : Nat → List Nat) (h : ∀ e < m, ∀ x ∈ ev e, x < n) :
    ((List.range n).map (fun v => ((List.range m).map (fun e => (ev e).count v)).sum)).sum =
      ((List.range m).map (fun e => (ev e).length)).sum := by
  induction m with
  | zero => simp
  | succ m ih =>
    have e : (fun v => ((List.range (m + 1)).map (fun e => (ev e).count v)).sum) =
        fun v => ((List.range m).map (fun e => (ev e).count v)).sum + (ev m).count v := by
      funext v; simp [List.range_succ]
    rw [e, sum_map_add, ih (fun e he => h e (by omega)), sum_count_range n (ev m) (h m (by omega))]
    simp [List.range_succ]

/-- What the constructed hypergraph stores. -/
theorem C17_construct (hs : s.Legal m (edgeVector idx pins)) (hw : ∀ v < n, 0 ≤ weightsOf nw v) {H : SHG}
    (h : createHypergraph n m idx pins ew nw s arr0 nets0 = some H) :
    H.n = n ∧ H.m = m ∧ H.nodes = List.range n ∧ H.edges = List.range m ∧
    (∀ e < m, (H.pins e).Pairwise (· < ·) ∧ ∀ v, v ∈ H.pins e ↔ v ∈ inputPins idx pins e) ∧
    (∀ v < n, H.inc v = (List.range m).filter (fun e => decide (v ∈ inputPins idx pins e))) ∧
    (∀ v < n, H.hnWeight v = weightsOf nw v) ∧ (∀ e < m, H.heWeight e = weightsOf ew e) ∧
    H.totalWeight = ((List.range n).map (weightsOf nw)).sum ∧
    H.numPins = ((List.range m).map (fun e => (H.pins e).length)).sum ∧
    H.totalDegree = ((List.range n).map (fun v => (H.inc v).length)).sum ∧
    H.totalDegree = H.numPins ∧
    (∀ k, H.maxEdgeSize ≤ k ↔ ∀ e < m, (H.pins e).length ≤ k) ∧
    (∀ e < m, H.heFirst e + H.heSize e ≤ H.numPins) ∧ (∀ v < n, H.hnFirst v + H.hnSize v ≤ H.totalDegree) ∧
    H.toHG.WF ∧ H.Rep := by
  have hlegal := (C17_rejects_iff (s := s) (ew := ew) (m := m) (idx := idx) (pins := pins) (arr0 := arr0)
    (nets0 := nets0) hw).not.1 (by rw [h]; simp)
  unfold createHypergraph at h
  split at h
  · simp at h
  split at h
  · simp at h
  split at h
  · simp at h
  unfold construct at h
  split at h
  · simp at h
  split at h
  · simp at h
  simp only [weightsOf_eq] at h
  split at h
  · simp at h
  rename_i htot
  have htw := (C17_total_weight hw s.reduce).2 (by simpa using htot)
  have hdeg := fun v => netCount_eq (ev := edgeVector idx pins) hs.thread v
  obtain ⟨hp, hn⟩ := writePins_spec hs.pins hdeg { arr := arr0, nets := nets0, cnt := fun _ => 0 } rfl
  have hmax := maxSize_le (ev := edgeVector idx pins) hs.thread
  simp only [Option.some.injEq, if_true] at h
  subst h
  set deg := netCount m (edgeVector idx pins) s.threads s.thread with hdegdef
  -- incident nets
  have hnets : ∀ v < n, sortIds ((s.pins.filter (fun p => decide (pinAt (edgeVector idx pins) p = v))).map Prod.fst) =
      (List.range m).filter (fun e => decide (v ∈ inputPins idx pins e)) := by
    intro v _
    have hnd : ((s.pins.filter (fun p => decide (pinAt (edgeVector idx pins) p = v))).map Prod.fst).Nodup := by
      refine List.Nodup.map_on ?_ ((hs.pins.nodup_iff.2 (allPins_nodup _ _)).filter _)
      intro p hp q hq hpq
      rw [List.mem_filter] at hp hq
      obtain ⟨hp1, hp2⟩ := hp
      obtain ⟨hq1, hq2⟩ := hq
      have hpm := mem_allPins.1 (hs.pins.mem_iff.1 hp1)
      have hqm := mem_allPins.1 (hs.pins.mem_iff.1 hq1)
      simp only [decide_eq_true_eq] at hp2 hq2
      refine Prod.ext hpq ?_
      have hinj : (edgeVector idx pins p.1).Nodup := sorted_nodup (edgeVector_sorted _)
      have : (edgeVector idx pins p.1).getD p.2 0 = (edgeVector idx pins p.1).getD q.2 0 := by
        have h1 : (edgeVector idx pins p.1).getD p.2 0 = v := hp2
        have h2 : (edgeVector idx pins q.1).getD q.2 0 = v := hq2
        rw [← hpq] at h2
        rw [h1, h2]
      rw [← hpq] at hqm
      rw [List.getD_eq_getElem _ _ hpm.2, List.getD_eq_getElem _ _ hqm.2] at this
      exact (hinj.getElem_inj_iff).1 this
    have hsrt : (sortIds ((s.pins.filter (fun p => decide (pinAt (edgeVector idx pins) p = v))).map Prod.fst)).Pairwise (· < ·) := by
      have h1 := sortIds_sorted ((s.pins.filter (fun p => decide (pinAt (edgeVector idx pins) p = v))).map Prod.fst)
      have h2 := (sortIds_perm ((s.pins.filter (fun p => decide (pinAt (edgeVector idx pins) p = v))).map Prod.fst)).nodup_iff.2 hnd
      exact (h1.and h2).imp (fun ⟨a, b⟩ => lt_of_le_of_ne a b)
    refine sorted_ext hsrt (List.pairwise_lt_range.filter _) ?_
    intro e
    rw [mem_sortIds, List.mem_map, List.mem_filter, List.mem_range, decide_eq_true_eq, ← mem_edgeVector]
    constructor
    · rintro ⟨p, hp, rfl⟩
      rw [List.mem_filter, decide_eq_true_eq] at hp
      have hpm := mem_allPins.1 (hs.pins.mem_iff.1 hp.1)
      refine ⟨hpm.1, ?_⟩
      have h2 : (edgeVector idx pins p.1).getD p.2 0 = v := hp.2
      rw [← h2, List.getD_eq_getElem _ _ hpm.2]
      exact List.getElem_mem _
    · rintro ⟨he, hv⟩
      obtain ⟨i, hi, rfl⟩ := List.getElem_of_mem hv
      refine ⟨(e, i), List.mem_filter.2 ⟨hs.pins.mem_iff.2 (mem_allPins.2 ⟨he, hi⟩), ?_⟩, rfl⟩
      rw [decide_eq_true_eq]
      show (edgeVector idx pins e).getD i 0 = _
      rw [List.getD_eq_getElem _ _ hi]
  set st := s.pins.foldl (writePin (edgeVector idx pins) (psum fun e => (edgeVector idx pins e).length) (psum deg))
    { arr := arr0, nets := nets0, cnt := fun _ => 0 } with hst
  set H : SHG :=
    { n := n, m := m
      hnEnabled := fun v => decide (v < n), hnFirst := psum deg, hnSize := deg, hnWeight := weightsOf nw
      heEnabled := fun e => decide (e < m), heFirst := psum fun e => (edgeVector idx pins e).length
      heSize := fun e => (edgeVector idx pins e).length
      heWeight := weightsOf ew
      incidenceArray := st.arr
      incidentNets := sortNets n (psum deg) deg st.nets
      totalWeight := (s.reduce.eval (weightsOf nw)).1
      numPins := psum (fun e => (edgeVector idx pins e).length) m
      totalDegree := psum deg n
      maxEdgeSize := maxSize m (edgeVector idx pins) s.threads s.thread } with hH
  have hpins : ∀ e < m, H.pins e = edgeVector idx pins e := fun e he => hp e he
  have hinc : ∀ v < n, H.inc v = (List.range m).filter (fun e => decide (v ∈ inputPins idx pins e)) := by
    intro v hv
    show readSeg (sortNets n (psum deg) deg st.nets) (psum deg v) (deg v) = _
    rw [sortNets_spec v hv, hn v]
    exact hnets v hv
  have hnodes : H.nodes = List.range n := by
    show (List.range n).filter (fun v => decide (v < n)) = _
    rw [List.filter_eq_self]; intro v hv; simpa using hv
  have hedges : H.edges = List.range m := by
    show (List.range m).filter (fun v => decide (v < m)) = _
    rw [List.filter_eq_self]; intro v hv; simpa using hv
  have hpl : ∀ e, (H.pins e).length = (edgeVector idx pins e).length := fun e => readSeg_length _ _ _
  have hil : ∀ v, (H.inc v).length = deg v := fun e => readSeg_length _ _ _
  have hwf : H.toHG.WF := by
    refine ⟨?_, ?_, ?_, ?_, ?_, ?_⟩
    · show H.nodes.Nodup
      rw [hnodes]; exact List.nodup_range
    · show H.edges.Nodup
      rw [hedges]; exact List.nodup_range
    · intro e he v hv
      have he : e ∈ H.edges := he
      have hv : v ∈ H.pins e := hv
      show v ∈ H.nodes
      rw [hedges, List.mem_range] at he
      rw [hnodes, List.mem_range]
      rw [hpins e he, mem_edgeVector, mem_inputPins] at hv
      obtain ⟨i, h1, h2, rfl⟩ := hv
      by_contra hge
      exact hlegal (.pin e i he h1 h2 (by omega))
    · intro e he
      have he : e ∈ H.edges := he
      rw [hedges, List.mem_range] at he
      show (H.pins e).Nodup
      rw [hpins e he]; exact sorted_nodup (edgeVector_sorted e)
    · intro v hv
      have hv : v ∈ H.nodes := hv
      rw [hnodes, List.mem_range] at hv
      show (H.inc v).Nodup
      rw [hinc v hv]; exact List.nodup_range.filter _
    · intro v hv e
      have hv : v ∈ H.nodes := hv
      rw [hnodes, List.mem_range] at hv
      show e ∈ H.inc v ↔ e ∈ H.edges ∧ v ∈ H.pins e
      rw [hinc v hv, hedges, List.mem_filter, decide_eq_true_eq, List.mem_range]
      constructor
      · rintro ⟨h1, h2⟩; exact ⟨h1, by rw [hpins e h1, mem_edgeVector]; exact h2⟩
      · rintro ⟨h1, h2⟩; exact ⟨h1, by rw [hpins e h1, mem_edgeVector] at h2; exact h2⟩
  refine ⟨rfl, rfl, hnodes, hedges, ?_, hinc, fun v _ => rfl, fun e _ => rfl, htw, ?_, ?_, ?_, ?_, ?_, ?_, hwf, ?_⟩
  · intro e he
    rw [hpins e he]
    exact ⟨edgeVector_sorted e, fun v => mem_edgeVector⟩
  · simp only [hpl]; rfl
  · simp only [hil]; rfl
  · show ((List.range n).map deg).sum = ((List.range m).map (fun e => (edgeVector idx pins e).length)).sum
    have : deg = fun v => ((List.range m).map (fun e => (edgeVector idx pins e).count v)).sum := funext hdeg
    rw [this]
    refine sum_deg_eq_sum_size n m _ ?_
    intro e he x hx
    have := hwf.pins_mem e (show e ∈ H.edges by rw [hedges]; exact List.mem_range.2 he) x
      (show x ∈ H.pins e by rw [hpins e he]; exact hx)
    have : x ∈ H.nodes := this
    rw [hnodes] at this; exact List.mem_range.1 this
  · intro k; simp only [hpl]; exact hmax k
  · intro e he; exact psum_le_of_lt (fun e => (edgeVector idx pins e).length) he
  · intro v hv; exact psum_le_of_lt deg hv
  · refine ⟨?_, ?_, ?_, ?_, ?_⟩
    · by_contra hc
      exact hlegal (.size (Or.inl (by show n > 4294967295; have : ¬ n ≤ kInvalid := hc; unfold kInvalid at this; omega)))
    · intro e he v hv
      have := hwf.pins_mem e he v hv
      have : v ∈ H.nodes := this
      rw [hnodes, List.mem_range] at this
      exact this
    · intro e _ f _ hne
      exact psum_disj (fun e => (edgeVector idx pins e).length) hne
    · intro v hv e he
      have := ((hwf.inc_iff v hv e).1 he).1
      have : e ∈ H.edges := this
      rw [hedges, List.mem_range] at this
      exact this
    · intro v hv e he
      exact (hwf.inc_iff v hv e).trans ⟨fun h => h.2, fun h => ⟨he, h⟩⟩

end

/-! ### A concrete construction: 4 nodes, hyperedges {0,2}, {3,1,3}, {1,2,0}; two counting threads -/
def exIdx : Nat → Nat := fun i => [0, 2, 5, 8].getD i 8
def exPins : Nat → Nat := fun i => [0, 2, 3, 1, 3, 1, 2, 0].getD i 0
def exFSched : FSched 4 :=
  { threads := 2, thread := fun e => if e = 1 then 0 else 1
    pins := [(2, 1), (0, 0), (1, 1), (2, 0), (1, 0), (0, 1), (2, 2)]
    reduce := .join (.extend (.start 0) 3 (by decide)) (.extend (.start 3) 4 (by decide)) }

theorem uniq_sortIds_of {l r : List Nat} (hr : r.Pairwise (· < ·)) (h : ∀ x, x ∈ r ↔ x ∈ l) :
    uniq (sortIds l) = r :=
  sorted_ext (uniq_sorted (sortIds_sorted _)) hr (fun x => by rw [mem_uniq, mem_sortIds, h])

theorem exFSched_legal : exFSched.Legal 3 (edgeVector exIdx exPins) := by
  have h : ∀ e < 3, edgeVector exIdx exPins e = [[0, 2], [1, 3], [0, 1, 2]].getD e [] := by
    intro e he
    unfold edgeVector
    rw [dedupPins_eq]
    have : e = 0 ∨ e = 1 ∨ e = 2 := by omega
    rcases this with rfl | rfl | rfl
    · exact uniq_sortIds_of (by decide) (fun x => by simp [readSeg, exIdx, exPins, List.range_succ])
    · exact uniq_sortIds_of (by decide) (fun x => by simp [readSeg, exIdx, exPins, List.range_succ]; omega)
    · exact uniq_sortIds_of (by decide) (fun x => by simp [readSeg, exIdx, exPins, List.range_succ]; omega)
  refine ⟨by decide, ?_⟩
  have : allPins 3 (edgeVector exIdx exPins) = allPins 3 (fun e => [[0, 2], [1, 3], [0, 1, 2]].getD e []) := by
    unfold allPins
    simp only [List.flatMap]
    congr 1
    apply List.map_congr_left
    intro e he
    rw [h e (List.mem_range.1 he)]
  rw [this]
  decide

example (arr0 nets0 : Nat → Nat) :
    ∃ H, createHypergraph 4 3 exIdx exPins none (some (fun v => v)) exFSched arr0 nets0 = some H ∧ H.toHG.WF ∧
      H.inc 2 = [0, 2] := by
  have hw : ∀ v < 4, 0 ≤ weightsOf (some (fun v => (v : Int))) v := by intro v _; simp [weightsOf]
  cases h : createHypergraph 4 3 exIdx exPins none (some (fun v => (v : Int))) exFSched arr0 nets0 with
  | some H =>
    have hc := C17_construct exFSched_legal hw h
    refine ⟨H, rfl, hc.2.2.2.2.2.2.2.2.2.2.2.2.2.2.2.1, ?_⟩
    rw [hc.2.2.2.2.2.1 2 (by decide)]
    decide
  | none =>
    exfalso
    have hb := (C17_rejects_iff hw).1 h
    cases hb with
    | size h => omega
    | start h => exact h rfl
    | descending e he h =>
      have : e = 0 ∨ e = 1 ∨ e = 2 := by omega
      rcases this with rfl | rfl | rfl <;> revert h <;> decide
    | empty e he h =>
      have : e = 0 ∨ e = 1 ∨ e = 2 := by omega
      rcases this with rfl | rfl | rfl <;> revert h <;> decide
    | long e he h =>
      have : e = 0 ∨ e = 1 ∨ e = 2 := by omega
      rcases this with rfl | rfl | rfl <;> revert h <;> decide
    | pin e i he h1 h2 h3 =>
      have : e = 0 ∨ e = 1 ∨ e = 2 := by omega
      have hi : i < 8 := by rcases this with rfl | rfl | rfl <;> exact lt_of_lt_of_le h2 (by decide)
      have : ∀ i < 8, exPins i < 4 := by decide
      have := this i hi
      omega
    | weight h => revert h; decide

end Verif
