import Verif.Lemmas.Contract2
/-! Lemmas about stages 2b and 4 of the contraction (incident nets, construction of the result). -/
namespace Verif
open SMap (wr)
open Contract

/-! ### Copying segments -/

theorem foldl_writeSeg {order : List Nat} (hn : order.Nodup) (start : Nat → Nat) (f : Nat → List Nat)
    (hd : ∀ i ∈ order, ∀ j ∈ order, i ≠ j →
      start i + (f i).length ≤ start j ∨ start j + (f j).length ≤ start i) (a : Nat → Nat) :
    ∀ i ∈ order, readSeg (order.foldl (fun a i => writeSeg a (start i) (f i)) a) (start i) (f i).length = f i := by
  intro i hi
  apply foldl_local (fun a i => writeSeg a (start i) (f i)) (fun _ _ => True)
    (fun i a => readSeg a (start i) (f i).length = f i) order a hn
  · intro s c _ _; exact readSeg_writeSeg_same
  · intros; trivial
  · intro s c d hc hd' hne h
    rw [readSeg_writeSeg_disj]
    · exact h
    · rcases hd c hc d hd' (fun e => hne e.symm) with h1 | h1 <;> omega
  · intros; trivial
  · exact hi

/-- state of `copyNets` after a list of nodes has been processed -/
theorem copyNets_spec (H : SHG) (cid start deg : Nat → Nat) (nets : Nat → Nat) (order : List Nat)
    (hdisj : ∀ c d, c ≠ d → start c + deg c ≤ start d ∨ start d + deg d ≤ start c)
    (hdeg : ∀ c, ((order.filter (fun v => cid v = c)).map H.hnSize).sum = deg c) (c : Nat) :
    readSeg (copyNets H cid start nets order).1 (start c) (deg c) =
      (order.filter (fun v => cid v = c)).flatMap H.inc := by
  unfold copyNets
  -- generalise over the processed prefix
  suffices G : ∀ (rest done : List Nat) (st : (Nat → Nat) × (Nat → Nat)), done ++ rest = order →
      (∀ c, st.2 c = ((done.filter (fun v => cid v = c)).map H.hnSize).sum) →
      (∀ c, readSeg st.1 (start c) (st.2 c) = (done.filter (fun v => cid v = c)).flatMap H.inc) →
      ∀ c, readSeg (rest.foldl (fun (st : (Nat → Nat) × (Nat → Nat)) hn =>
        (writeSeg st.1 (start (cid hn) + st.2 (cid hn)) (readSeg H.incidentNets (H.hnFirst hn) (H.hnSize hn)),
          wr st.2 (cid hn) (st.2 (cid hn) + H.hnSize hn))) st).1 (start c) (deg c) =
        (order.filter (fun v => cid v = c)).flatMap H.inc by
    exact G order [] (nets, fun _ => 0) (by simp) (by simp) (by simp [readSeg]) c
  intro rest
  induction rest with
  | nil =>
    intro done st hd h1 h2 c
    rw [List.append_nil] at hd
    subst hd
    rw [← hdeg, ← h1]
    exact h2 c
  | cons v rest ih =>
    intro done st hd h1 h2 c
    rw [List.foldl_cons]
    have hle : ∀ c, ((((done ++ [v]).filter (fun v => cid v = c)).map H.hnSize).sum) ≤ deg c := by
      intro c
      rw [← hdeg, ← hd, show v :: rest = [v] ++ rest from rfl, ← List.append_assoc, List.filter_append _ rest,
        List.map_append, List.sum_append]
      omega
    apply ih (done ++ [v])
    · simpa using hd
    · intro c
      simp only [List.filter_append, List.map_append, List.sum_append]
      by_cases hc : cid v = c
      · subst hc
        rw [wr_same, h1]
        simp
      · rw [wr_other _ _ (fun h => hc h.symm), h1]
        simp [hc]
    · intro c
      simp only [List.filter_append, List.flatMap_append]
      have hl := hle (cid v)
      rw [List.filter_append, List.map_append, List.sum_append, ← h1] at hl
      simp only [List.filter_cons, decide_true, if_true, List.filter_nil, List.map_cons, List.map_nil,
        List.sum_cons, List.sum_nil, Nat.add_zero] at hl
      by_cases hc : cid v = c
      · subst hc
        rw [wr_same, readSeg_append]
        congr 1
        · rw [readSeg_writeSeg_disj (Or.inl (Nat.le_refl _))]
          exact h2 _
        · simp only [List.filter_cons, decide_true, if_true, List.filter_nil, List.flatMap_cons, List.flatMap_nil,
            List.append_nil]
          have := readSeg_writeSeg_same (a := st.1) (s := start (cid v) + st.2 (cid v))
            (l := readSeg H.incidentNets (H.hnFirst v) (H.hnSize v))
          rw [readSeg_length] at this
          exact this
      · rw [wr_other _ _ (fun h => hc h.symm)]
        have hl2 : st.2 c ≤ deg c := by
          rw [h1, ← hdeg, ← hd, List.filter_append, List.map_append, List.sum_append]
          omega
        rw [readSeg_writeSeg_disj]
        · rw [h2]; simp [hc]
        · rw [readSeg_length]
          rcases hdisj c (cid v) (fun h => hc h.symm) with h | h
          · left; omega
          · right; omega

/-! ### Duplicate removal -/

theorem uniq_sortIds_nodup (l : List Nat) : (uniq (sortIds l)).Nodup := sorted_nodup (uniq_sorted (sortIds_sorted l))
theorem mem_uniq_sortIds {l : List Nat} {x : Nat} : x ∈ uniq (sortIds l) ↔ x ∈ l := by rw [mem_uniq, mem_sortIds]

theorem dedupHighDegree_spec {lb : Nat} {ins bks : List Nat} {det : Bool} {l : List Nat}
    (hi : ins.Perm (List.range l.length)) (hb : bks.Perm (List.range (2 ^ lb))) :
    (dedupHighDegree lb ins bks det l).Nodup ∧ ∀ x, x ∈ dedupHighDegree lb ins bks det l ↔ x ∈ l := by
  have hins : ∀ x, x ∈ ins.map (fun i => l.getD i 0) ↔ x ∈ l := by
    intro x
    rw [(hi.map _).mem_iff, List.mem_map]
    constructor
    · rintro ⟨i, h, rfl⟩
      have h := List.mem_range.1 h
      simp [List.getD, h]
    · intro h
      obtain ⟨i, h1, h2⟩ := List.getElem_of_mem h
      exact ⟨i, List.mem_range.2 h1, by simp [List.getD, h1, h2]⟩
  have hout : ((bks.map (fun b => uniq (sortIds ((ins.map (fun i => l.getD i 0)).filter
        (fun he => decide (he &&& (2 ^ lb - 1) = b)))))).flatten).Nodup ∧
      ∀ x, x ∈ (bks.map (fun b => uniq (sortIds ((ins.map (fun i => l.getD i 0)).filter
        (fun he => decide (he &&& (2 ^ lb - 1) = b)))))).flatten ↔ x ∈ l := by
    constructor
    · rw [List.nodup_flatten]
      constructor
      · intro s hs
        obtain ⟨b, _, rfl⟩ := List.mem_map.1 hs
        exact uniq_sortIds_nodup _
      · rw [List.pairwise_map]
        refine (hb.nodup_iff.2 List.nodup_range).imp ?_
        intro b b' hne x h1 h2
        rw [mem_uniq_sortIds, List.mem_filter] at h1 h2
        have h1 := h1.2
        have h2 := h2.2
        simp only [decide_eq_true_eq] at h1 h2
        exact hne (h1.symm.trans h2)
    · intro x
      rw [List.mem_flatten]
      constructor
      · rintro ⟨s, hs, hx⟩
        obtain ⟨b, _, rfl⟩ := List.mem_map.1 hs
        rw [mem_uniq_sortIds, List.mem_filter] at hx
        exact (hins x).1 hx.1
      · intro hx
        refine ⟨_, List.mem_map.2 ⟨x &&& (2 ^ lb - 1), ?_, rfl⟩, ?_⟩
        · rw [hb.mem_iff, List.mem_range]
          have : x &&& (2 ^ lb - 1) ≤ 2 ^ lb - 1 := Nat.and_le_right
          have : (0:Nat) < 2 ^ lb := Nat.two_pow_pos lb
          omega
        · rw [mem_uniq_sortIds, List.mem_filter]
          exact ⟨(hins x).2 hx, by simp⟩
  unfold dedupHighDegree
  simp only
  split
  · exact ⟨(sortIds_perm _).nodup_iff.2 hout.1, fun x => by rw [mem_sortIds]; exact hout.2 x⟩
  · exact hout

theorem dedupNets_spec {s : CSched} {c : Nat} {l : List Nat}
    (hi : (s.netInsert c).Perm (List.range l.length)) (hb : (s.netBuckets c).Perm (List.range (2 ^ s.logBuckets))) :
    (dedupNets s c l).Nodup ∧ ∀ x, x ∈ dedupNets s c l ↔ x ∈ l := by
  unfold dedupNets
  split
  · exact ⟨uniq_sortIds_nodup l, fun x => mem_uniq_sortIds⟩
  · exact dedupHighDegree_spec hi hb

theorem nodup_subset_length {l l' : List Nat} (h : l.Nodup) (hs : ∀ x ∈ l, x ∈ l') : l.length ≤ l'.length :=
  (List.subperm_of_subset h hs).length_le

theorem dedupAll_spec {s : CSched} {n' : Nat} {deg : Nat → Nat} {nets size : Nat → Nat} (L : Nat → List Nat)
    (ho : s.dedup.Perm (List.range n'))
    (hL : ∀ c < n', readSeg nets (psum deg c) (deg c) = L c)
    (hi : ∀ c < n', (s.netInsert c).Perm (List.range (deg c)))
    (hb : ∀ c < n', (s.netBuckets c).Perm (List.range (2 ^ s.logBuckets))) :
    ∀ c < n', readSeg (dedupAll s (psum deg) nets size).1 (psum deg c) ((dedupAll s (psum deg) nets size).2 c) =
        dedupNets s c (L c) ∧
      (dedupAll s (psum deg) nets size).2 c = (dedupNets s c (L c)).length ∧
      (dedupNets s c (L c)).length ≤ deg c := by
  have hmem : ∀ x, x ∈ s.dedup ↔ x < n' := fun x => by rw [ho.mem_iff, List.mem_range]
  have hlen : ∀ c < n', (L c).length = deg c := fun c hc => by rw [← hL c hc, readSeg_length]
  have hle : ∀ c < n', (dedupNets s c (L c)).length ≤ deg c := by
    intro c hc
    rw [← hlen c hc]
    have := dedupNets_spec (s := s) (c := c) (l := L c) (by rw [hlen c hc]; exact hi c hc) (hb c hc)
    exact nodup_subset_length this.1 (fun x hx => (this.2 x).1 hx)
  intro c hc
  have hw : ∀ c, psum deg (c + 1) - psum deg c = deg c := fun c => by rw [psum_succ]; omega
  have := foldl_local (fun st c =>
    (writeSeg st.1 (psum deg c) (dedupNets s c (readSeg st.1 (psum deg c) (psum deg (c + 1) - psum deg c))),
      wr st.2 c (dedupNets s c (readSeg st.1 (psum deg c) (psum deg (c + 1) - psum deg c))).length))
    (fun c (st : (Nat → Nat) × (Nat → Nat)) => readSeg st.1 (psum deg c) (deg c) = L c)
    (fun c st => readSeg st.1 (psum deg c) (st.2 c) = dedupNets s c (L c) ∧
      st.2 c = (dedupNets s c (L c)).length)
    s.dedup (nets, size) (ho.nodup_iff.2 List.nodup_range)
    (by
      intro st c hc hP
      simp only [hw, hP, wr_same]
      exact ⟨readSeg_writeSeg_same, trivial⟩)
    (by
      intro st c d hc hd hne hP
      simp only [hw]
      rw [readSeg_writeSeg_disj]
      · exact hP
      · have h1 : (dedupNets s c (readSeg st.1 (psum deg c) (deg c))).length ≤ deg c := by
          have := dedupNets_spec (s := s) (c := c) (l := readSeg st.1 (psum deg c) (deg c))
            (by rw [readSeg_length]; exact hi c ((hmem c).1 hc)) (hb c ((hmem c).1 hc))
          have h2 := nodup_subset_length this.1 (fun x hx => (this.2 x).1 hx)
          rwa [readSeg_length] at h2
        rcases psum_disj deg hne with h | h <;> omega)
    (by
      intro st c d hc hd hne hQ
      simp only [hw]
      rw [wr_other _ _ hne]
      refine ⟨?_, hQ.2⟩
      have h0 := hle d ((hmem d).1 hd)
      have hQ2 := hQ.2
      rw [readSeg_writeSeg_disj]
      · exact hQ.1
      · have h1 : (dedupNets s c (readSeg st.1 (psum deg c) (deg c))).length ≤ deg c := by
          have := dedupNets_spec (s := s) (c := c) (l := readSeg st.1 (psum deg c) (deg c))
            (by rw [readSeg_length]; exact hi c ((hmem c).1 hc)) (hb c ((hmem c).1 hc))
          have h2 := nodup_subset_length this.1 (fun x hx => (this.2 x).1 hx)
          rwa [readSeg_length] at h2
        rcases psum_disj deg hne with h | h <;> omega)
    (fun c hc => hL c ((hmem c).1 hc)) c ((hmem c).2 hc)
  exact ⟨this.1, this.2, hle c hc⟩

/-! ### Remapping -/

theorem remapLoop_spec (valid : Nat → Nat) : ∀ (fuel : Nat) (nets : Nat → Nat) (pos en : Nat), pos ≤ en →
    en - pos ≤ fuel →
    pos ≤ (remapLoop valid fuel nets pos en).2 ∧ (remapLoop valid fuel nets pos en).2 ≤ en ∧
    (∀ p, (p < pos ∨ en ≤ p) → (remapLoop valid fuel nets pos en).1 p = nets p) ∧
    (readSeg (remapLoop valid fuel nets pos en).1 pos ((remapLoop valid fuel nets pos en).2 - pos)).Perm
      (((readSeg nets pos (en - pos)).filter (fun e => decide (valid e > 0))).map (psum valid)) := by
  intro fuel
  induction fuel with
  | zero =>
    intro nets pos en h1 h2
    have : en = pos := by omega
    subst this
    simp [remapLoop, readSeg]
  | succ fuel ih =>
    intro nets pos en h1 h2
    unfold remapLoop
    by_cases hlt : pos < en
    · rw [if_pos hlt]
      by_cases hv : valid (nets pos) > 0
      · rw [if_pos hv]
        obtain ⟨g1, g2, g3, g4⟩ := ih (wr nets pos (psum valid (nets pos))) (pos + 1) en (by omega) (by omega)
        refine ⟨by omega, g2, ?_, ?_⟩
        · intro p hp
          rw [g3 p (by omega), wr_other _ _ (by omega)]
        · have e1 : ∀ k, k - pos = (k - (pos + 1)) + 1 ∨ k ≤ pos := by intro k; omega
          rw [show en - pos = (en - (pos + 1)) + 1 by omega, readSeg_succ nets]
          have e2 : (remapLoop valid fuel (wr nets pos (psum valid (nets pos))) (pos + 1) en).2 - pos =
            ((remapLoop valid fuel (wr nets pos (psum valid (nets pos))) (pos + 1) en).2 - (pos + 1)) + 1 := by omega
          rw [e2, readSeg_succ, g3 pos (by omega), wr_same, List.filter_cons_of_pos (by simpa using hv), List.map_cons]
          apply List.Perm.cons
          refine g4.trans ?_
          rw [readSeg_congr (b := nets)]
          intro i _
          exact wr_other _ _ (by omega)
      · rw [if_neg hv]
        obtain ⟨g1, g2, g3, g4⟩ := ih (wr (wr nets pos (nets (en - 1))) (en - 1) (nets pos)) pos (en - 1) (by omega)
          (by omega)
        refine ⟨g1, by omega, ?_, ?_⟩
        · intro p hp
          rw [g3 p (by omega), wr_other _ _ (by omega), wr_other _ _ (by omega)]
        · refine g4.trans ?_
          -- the segment without its last cell is a permutation of the segment without its first
          apply List.Perm.map
          rw [show en - pos = (en - (pos + 1)) + 1 by omega]
          rw [readSeg_succ nets, List.filter_cons_of_neg (by simpa using hv)]
          apply List.Perm.filter
          by_cases hone : en = pos + 1
          · subst hone
            simp [readSeg]
          · have e1 : en - 1 - pos = (en - 2 - pos) + 1 := by omega
            rw [e1, readSeg_succ, wr_other _ _ (by omega), wr_same]
            rw [show en - (pos + 1) = (en - 2 - pos) + 1 by omega, readSeg_append]
            have e3 : readSeg (wr (wr nets pos (nets (en - 1))) (en - 1) (nets pos)) (pos + 1) (en - 2 - pos) =
                readSeg nets (pos + 1) (en - 2 - pos) := by
              apply readSeg_congr
              intro i hi
              rw [wr_other _ _ (by omega), wr_other _ _ (by omega)]
            rw [e3]
            have e4 : readSeg nets (pos + 1 + (en - 2 - pos)) 1 = [nets (en - 1)] := by
              simp only [readSeg, List.range_one, List.map_cons, List.map_nil, Nat.add_zero]
              congr 2; omega
            rw [e4]
            exact (List.perm_append_singleton _ _).symm
    · rw [if_neg hlt]
      have : en = pos := by omega
      subst this
      simp [readSeg]

theorem remapAll_spec {valid : Nat → Nat} {n' : Nat} {deg : Nat → Nat} {order : List Nat} {nets size : Nat → Nat}
    (D : Nat → List Nat) (ho : order.Perm (List.range n'))
    (hD : ∀ c < n', readSeg nets (psum deg c) (size c) = D c)
    (hs : ∀ c < n', size c ≤ deg c) :
    ∀ c < n', (readSeg (remapAll valid (psum deg) order nets size).1 (psum deg c)
        ((remapAll valid (psum deg) order nets size).2 c)).Perm
        (((D c).filter (fun e => decide (valid e > 0))).map (psum valid)) := by
  have hmem : ∀ x, x ∈ order ↔ x < n' := fun x => by rw [ho.mem_iff, List.mem_range]
  intro c hc
  have hstep : ∀ (st : (Nat → Nat) × (Nat → Nat)) (c : Nat),
      (remapLoop valid (st.2 c) st.1 (psum deg c) (psum deg c + st.2 c)).2 - psum deg c ≤ st.2 c ∧
      (∀ p, (p < psum deg c ∨ psum deg c + st.2 c ≤ p) →
        (remapLoop valid (st.2 c) st.1 (psum deg c) (psum deg c + st.2 c)).1 p = st.1 p) := by
    intro st c
    obtain ⟨g1, g2, g3, _⟩ := remapLoop_spec valid (st.2 c) st.1 (psum deg c) (psum deg c + st.2 c) (by omega) (by omega)
    exact ⟨by omega, g3⟩
  have := foldl_local (fun (st : (Nat → Nat) × (Nat → Nat)) c =>
      ((remapLoop valid (st.2 c) st.1 (psum deg c) (psum deg c + st.2 c)).1,
        wr st.2 c ((remapLoop valid (st.2 c) st.1 (psum deg c) (psum deg c + st.2 c)).2 - psum deg c)))
    (fun c (st : (Nat → Nat) × (Nat → Nat)) => readSeg st.1 (psum deg c) (st.2 c) = D c ∧
      ∀ d < n', st.2 d ≤ deg d)
    (fun c st => (readSeg st.1 (psum deg c) (st.2 c)).Perm
      (((D c).filter (fun e => decide (valid e > 0))).map (psum valid)) ∧ ∀ d < n', st.2 d ≤ deg d)
    order (nets, size) (ho.nodup_iff.2 List.nodup_range)
    (by
      intro st c hc hP
      obtain ⟨g1, g2, g3, g4⟩ := remapLoop_spec valid (st.2 c) st.1 (psum deg c) (psum deg c + st.2 c) (by omega) (by omega)
      refine ⟨?_, ?_⟩
      · simp only [wr_same]
        rw [show psum deg c + st.2 c - psum deg c = st.2 c by omega, hP.1] at g4
        exact g4
      · intro d hd
        have := hP.2 d hd
        have := (hstep st c).1
        by_cases hdc : d = c
        · subst hdc
          show wr _ _ _ _ ≤ _
          rw [wr_same]; omega
        · show wr _ _ _ _ ≤ _
          rw [wr_other _ _ hdc]; omega)
    (by
      intro st c d hc hd hne hP
      refine ⟨?_, ?_⟩
      · simp only [wr_other _ _ hne]
        rw [readSeg_congr (b := st.1)]
        · exact hP.1
        · intro i hi
          apply (hstep st c).2
          have h1 := hP.2 c ((hmem c).1 hc)
          have h2 := hP.2 d ((hmem d).1 hd)
          rcases psum_disj deg hne with h | h <;> omega
      · intro d hd
        have := hP.2 d hd
        have := (hstep st c).1
        by_cases hdc : d = c
        · subst hdc
          show wr _ _ _ _ ≤ _
          rw [wr_same]; omega
        · show wr _ _ _ _ ≤ _
          rw [wr_other _ _ hdc]; omega)
    (by
      intro st c d hc hd hne hP
      refine ⟨?_, ?_⟩
      · simp only [wr_other _ _ hne]
        rw [readSeg_congr (b := st.1)]
        · exact hP.1
        · intro i hi
          apply (hstep st c).2
          have h1 := hP.2 c ((hmem c).1 hc)
          have h2 := hP.2 d ((hmem d).1 hd)
          rcases psum_disj deg hne with h | h <;> omega
      · intro d hd
        have := hP.2 d hd
        have := (hstep st c).1
        by_cases hdc : d = c
        · subst hdc
          show wr _ _ _ _ ≤ _
          rw [wr_same]; omega
        · show wr _ _ _ _ ≤ _
          rw [wr_other _ _ hdc]; omega)
    (fun c hc => ⟨hD c ((hmem c).1 hc), hs⟩) c ((hmem c).2 hc)
  exact this.1

theorem writeNets_spec {tmp tmpStart size out : Nat → Nat} {n' : Nat} {order : List Nat}
    (ho : order.Perm (List.range n')) :
    ∀ c < n', readSeg (writeNets tmp tmpStart size order out) (psum size c) (size c) =
      readSeg tmp (tmpStart c) (size c) := by
  intro c hc
  have := foldl_writeSeg (order := order) (ho.nodup_iff.2 List.nodup_range) (psum size)
    (fun c => readSeg tmp (tmpStart c) (size c))
    (by intro i _ j _ hne; simp only [readSeg_length]; exact psum_disj size hne) out c
    (by rw [ho.mem_iff, List.mem_range]; exact hc)
  rwa [readSeg_length] at this

/-! ### Writing the hyperedges -/

theorem writeEdges_spec {st : EdgeSt} {weight : Nat → Int} {valid : Nat → Nat} {m : Nat} {order : List Nat}
    {sizes : Nat → Nat} (hs : sizes = fun id => if valid id > 0 then st.size id else 0)
    (ho : order.Perm (List.range m)) (x0 : NewEdges) :
    ∀ id < m, valid id > 0 →
      let x := order.foldl (writeEdge st weight valid sizes) x0
      x.first (psum valid id) = psum sizes id ∧ x.size (psum valid id) = st.size id ∧
      x.enabled (psum valid id) = st.enabled id ∧ x.weight (psum valid id) = weight id ∧
      readSeg x.arr (psum sizes id) (st.size id) = readSeg st.arr (st.first id) (st.size id) := by
  intro id hid hv
  simp only
  have hsz : ∀ i, valid i > 0 → sizes i = st.size i := by intro i hi; rw [hs]; simp [hi]
  exact foldl_local (writeEdge st weight valid sizes) (fun _ _ => True)
    (fun id x => valid id > 0 →
      x.first (psum valid id) = psum sizes id ∧ x.size (psum valid id) = st.size id ∧
      x.enabled (psum valid id) = st.enabled id ∧ x.weight (psum valid id) = weight id ∧
      readSeg x.arr (psum sizes id) (st.size id) = readSeg st.arr (st.first id) (st.size id))
    order x0 (ho.nodup_iff.2 List.nodup_range)
    (by
      intro s c _ _ hc
      unfold writeEdge
      rw [if_pos hc]
      refine ⟨wr_same _ _ _, wr_same _ _ _, wr_same _ _ _, wr_same _ _ _, ?_⟩
      have := readSeg_writeSeg_same (a := s.arr) (s := psum sizes c) (l := readSeg st.arr (st.first c) (st.size c))
      rwa [readSeg_length] at this)
    (by intros; trivial)
    (by
      intro s c d _ _ hne hQ hd
      unfold writeEdge
      by_cases hc : valid c > 0
      · rw [if_pos hc]
        have hp : psum valid d ≠ psum valid c := fun h => hne (psum_inj valid hd hc h)
        obtain ⟨q1, q2, q3, q4, q5⟩ := hQ hd
        refine ⟨(wr_other _ _ hp).trans q1, (wr_other _ _ hp).trans q2, (wr_other _ _ hp).trans q3,
          (wr_other _ _ hp).trans q4, ?_⟩
        show readSeg (writeSeg s.arr _ _) _ _ = _
        rw [readSeg_writeSeg_disj]
        · exact q5
        · rw [readSeg_length]
          have h1 := hsz c hc
          have h2 := hsz d hd
          rcases psum_disj sizes hne with h | h <;> omega
      · rw [if_neg hc]; exact hQ hd)
    (by intros; trivial) id (by rw [ho.mem_iff, List.mem_range]; exact hid) hv

theorem writeEdges_max {st : EdgeSt} {weight : Nat → Int} {valid : Nat → Nat} {sizes : Nat → Nat}
    (order : List Nat) (x0 : NewEdges) (k : Nat) :
    (order.foldl (writeEdge st weight valid sizes) x0).maxSize ≤ k ↔
      x0.maxSize ≤ k ∧ ∀ id ∈ order, valid id > 0 → st.size id ≤ k := by
  induction order generalizing x0 with
  | nil => simp
  | cons a order ih =>
    rw [List.foldl_cons, ih]
    unfold writeEdge
    by_cases ha : valid a > 0
    · rw [if_pos ha]
      simp only [List.mem_cons, forall_eq_or_imp]
      constructor
      · rintro ⟨h1, h2⟩; exact ⟨by omega, fun _ => by omega, h2⟩
      · rintro ⟨h1, h2, h3⟩; exact ⟨by have := h2 ha; omega, h3⟩
    · rw [if_neg ha]
      simp only [List.mem_cons, forall_eq_or_imp]
      constructor
      · rintro ⟨h1, h2⟩; exact ⟨h1, fun h => absurd h ha, h2⟩
      · rintro ⟨h1, _, h3⟩; exact ⟨h1, h3⟩

end Verif
