import Verif.Lemmas.Batches6
/-! `finalize`: the children of a node, sorted, and the roots of a version. -/
namespace Verif
namespace Uncontract
open Schedule
open SMap (wr)

variable {t : CTree}

/-- children of `u` among the nodes of `l` -/
def kids (t : CTree) (u : Nat) (l : List Nat) : List Nat := l.filter (fun v => decide (t.par v = u ∧ t.par v ≠ v))

theorem outDegrees_eq (t : CTree) (u : Nat) (o : List Nat) : t.outDegrees o u = (kids t u o).length := by
  unfold CTree.outDegrees
  suffices h : ∀ (o : List Nat) (d : Nat → Nat), o.foldl (fun d v => if t.par v ≠ v then wr d (t.par v) (d (t.par v) + 1) else d) d u =
      d u + (kids t u o).length by
    rw [h]; simp
  intro o
  induction o with
  | nil => intro d; simp [kids]
  | cons a o ih =>
    intro d
    rw [List.foldl_cons, ih]
    unfold kids
    rw [List.filter_cons]
    by_cases h : t.par a ≠ a
    · rw [if_pos h]
      by_cases hu : t.par a = u
      · subst hu
        rw [wr_same, if_pos (by simpa using h), List.length_cons]; omega
      · rw [wr_other _ _ (fun h => hu h.symm), if_neg (by simp [hu])]
    · rw [if_neg h, if_neg (by simpa using fun _ => not_not.1 h)]

theorem fill_spec {o1 o2 : List Nat} (hp : o1.Perm o2) (inc0 : Nat → Nat) (u : Nat) :
    readSeg (o2.foldl (t.fillStep (psum (t.outDegrees o1))) { inc := inc0, pos := fun _ => 0 }).inc
      (psum (t.outDegrees o1) u) (t.outDegrees o1 u) = kids t u o2 := by
  have hdeg : ∀ u, t.outDegrees o1 u = (kids t u o2).length := by
    intro u; rw [outDegrees_eq]; exact (hp.filter _).length_eq
  generalize t.outDegrees o1 = deg at hdeg ⊢
  suffices G : ∀ (rest done : List Nat) (s : FillSt), done ++ rest = o2 →
      (∀ u, s.pos u = (kids t u done).length) → (∀ u, readSeg s.inc (psum deg u) (s.pos u) = kids t u done) →
      ∀ u, readSeg (rest.foldl (t.fillStep (psum deg)) s).inc (psum deg u) (deg u) = kids t u o2 from
    G o2 [] _ rfl (fun u => rfl) (fun u => rfl) u
  intro rest
  induction rest with
  | nil =>
    intro done s hd h1 h2 u
    rw [List.append_nil] at hd
    subst hd
    rw [List.foldl_nil, hdeg, ← h1]
    exact h2 u
  | cons v rest ih =>
    intro done s hd h1 h2
    rw [List.foldl_cons]
    have hsplit : ∀ u, (kids t u done).length + (kids t u [v]).length ≤ deg u := by
      intro u
      rw [hdeg, ← hd, show v :: rest = [v] ++ rest from rfl]
      unfold kids
      simp only [List.filter_append, List.length_append]
      omega
    have hk : ∀ u, kids t u (done ++ [v]) = kids t u done ++ kids t u [v] := by
      intro u; unfold kids; rw [List.filter_append]
    apply ih (done ++ [v]) (t.fillStep (psum deg) s v) (by rw [← hd]; simp)
    · intro u
      rw [hk, List.length_append]
      unfold CTree.fillStep
      by_cases h : t.par v ≠ v
      · rw [if_pos h]
        show wr s.pos (t.par v) (s.pos (t.par v) + 1) u = _
        by_cases hu : t.par v = u
        · subst hu
          have : kids t (t.par v) [v] = [v] := by simp [kids, h]
          rw [wr_same, h1, this]; rfl
        · have : kids t u [v] = [] := by simp [kids, hu]
          rw [wr_other _ _ (fun h => hu h.symm), h1, this]; rfl
      · have : kids t u [v] = [] := by
            unfold kids; rw [List.filter_cons_of_neg (by simpa using fun _ => not_not.1 h)]; rfl
        rw [if_neg h, h1, this]; rfl
    · intro u
      rw [hk]
      unfold CTree.fillStep
      by_cases h : t.par v ≠ v
      · rw [if_pos h]
        show readSeg (wr s.inc (psum deg (t.par v) + s.pos (t.par v)) v) (psum deg u)
          (wr s.pos (t.par v) (s.pos (t.par v) + 1) u) = _
        by_cases hu : t.par v = u
        · subst hu
          have hkv : kids t (t.par v) [v] = [v] := by simp [kids, h]
          rw [wr_same, hkv, readSeg_append, ← h2]
          congr 1
          · apply readSeg_congr
            intro i hi
            rw [wr_other _ _ (by omega)]
          · simp [readSeg, wr]
        · have hkv : kids t u [v] = [] := by simp [kids, hu]
          rw [wr_other _ _ (fun h => hu h.symm), hkv, List.append_nil, ← h2]
          apply readSeg_congr
          intro i hi
          have hkp : kids t (t.par v) [v] = [v] := by simp [kids, h]
          have g1 := hsplit (t.par v)
          have g2 := hsplit u
          rw [hkp, List.length_singleton, ← h1] at g1
          rw [← h1] at g2
          rw [wr_other]
          rcases psum_disj deg hu with g | g <;> omega
      · have hkv : kids t u [v] = [] := by
            unfold kids; rw [List.filter_cons_of_neg (by simpa using fun _ => not_not.1 h)]; rfl
        rw [if_neg h, hkv, List.append_nil, h2]

theorem childs_eq {o1 o2 o3 : List Nat} (hp : o1.Perm o2) (h3 : o3.Nodup) (inc0 : Nat → Nat) {u : Nat} (hu : u ∈ o3) :
    t.childs o1 o2 o3 inc0 u = t.sortChilds (kids t u o2) := by
  unfold CTree.childs CTree.incidence
  simp only [psum_succ, Nat.add_sub_cancel_left]
  have hf := fun u => fill_spec (t := t) hp inc0 u
  generalize (o2.foldl (t.fillStep (psum (t.outDegrees o1))) { inc := inc0, pos := fun _ => 0 }).inc = inc at hf ⊢
  generalize t.outDegrees o1 = deg at hf ⊢
  have hl : ∀ (a : Nat → Nat) c, (t.sortChilds (readSeg a (psum deg c) (deg c))).length = deg c := by
    intro a c; rw [(sortChilds_perm t _).length_eq, readSeg_length]
  refine foldl_local (t.sortStep deg) (fun v a => readSeg a (psum deg v) (deg v) = kids t v o2)
    (fun v a => readSeg a (psum deg v) (deg v) = t.sortChilds (kids t v o2)) o3 inc h3 ?_ ?_ ?_ ?_ u hu
  · intro a c _ hP
    have := readSeg_writeSeg_same (a := a) (s := psum deg c) (l := t.sortChilds (readSeg a (psum deg c) (deg c)))
    rw [hl] at this
    unfold CTree.sortStep
    rw [this, hP]
  · intro a c d _ _ hne hP
    unfold CTree.sortStep
    rw [readSeg_writeSeg_disj]
    · exact hP
    · rw [hl]; rcases psum_disj deg hne with h | h <;> omega
  · intro a c d _ _ hne hP
    unfold CTree.sortStep
    rw [readSeg_writeSeg_disj]
    · exact hP
    · rw [hl]; rcases psum_disj deg hne with h | h <;> omega
  · intro c _; exact hf c

/-- beyond the last node there are no children -/
theorem childs_out {o1 o2 o3 : List Nat} (inc0 : Nat → Nat) {u : Nat} (hu : kids t u o1 = []) :
    t.childs o1 o2 o3 inc0 u = [] := by
  unfold CTree.childs
  simp only [psum_succ, Nat.add_sub_cancel_left]
  rw [outDegrees_eq, hu]
  rfl

theorem childs_ok (hpar : ∀ v < t.n, t.par v < t.n) {o1 o2 o3 : List Nat} (h1 : o1.Perm (List.range t.n))
    (h2 : o2.Perm (List.range t.n)) (h3 : o3.Perm (List.range t.n)) (inc0 : Nat → Nat) :
    ChildsOK t (t.childs o1 o2 o3 inc0) := by
  have hk : ∀ u v, v ∈ kids t u o2 ↔ v < t.n ∧ t.par v = u ∧ v ≠ u := by
    intro u v
    unfold kids
    rw [List.mem_filter, h2.mem_iff, List.mem_range]
    simp only [decide_eq_true_eq]
    constructor
    · rintro ⟨a, b, c⟩; exact ⟨a, b, fun h => c (by omega)⟩
    · rintro ⟨a, b, c⟩; exact ⟨a, b, fun h => c (by omega)⟩
  have hn3 : o3.Nodup := h3.nodup_iff.2 List.nodup_range
  have hn2 : ∀ u, (kids t u o2).Nodup := fun u => (h2.nodup_iff.2 List.nodup_range).filter _
  have hcase : ∀ u, t.childs o1 o2 o3 inc0 u = t.sortChilds (kids t u o2) := by
    intro u
    by_cases hu : u < t.n
    · exact childs_eq (h1.trans h2.symm) hn3 inc0 (h3.mem_iff.2 (List.mem_range.2 hu))
    · have h0 : kids t u o2 = [] := by
        rw [List.eq_nil_iff_forall_not_mem]
        intro v hv
        have := (hk u v).1 hv
        have := hpar v this.1
        omega
      have h0' : kids t u o1 = [] := by
        have := (h1.trans h2.symm).filter (fun v => decide (t.par v = u ∧ t.par v ≠ v))
        unfold kids at h0 ⊢
        rw [h0] at this
        exact this.eq_nil
      rw [childs_out inc0 h0', h0]
      exact ((sortChilds_perm t []).eq_nil).symm
  refine ⟨?_, ?_, ?_⟩
  · intro u v; rw [hcase, (sortChilds_perm t _).mem_iff, hk]
  · intro u; rw [hcase, (sortChilds_perm t _).nodup_iff]; exact hn2 u
  · intro u; rw [hcase]; exact sortChilds_sorted t (hn2 u)

/-! ### Roots of a version -/

theorem rootVersions_count (t : CTree) (u k : Nat) : ∀ (l : List Nat) (last : Nat),
    l.Pairwise (fun a b => t.ver a ≤ t.ver b) → ((∀ v ∈ l, last ≤ t.ver v) ∨ (∀ v ∈ l, t.ver v ≠ last)) →
    ((t.rootVersions u last l).filter (fun x => decide (x = k))).length =
      if k < t.ver u ∧ k ≠ last ∧ ∃ v ∈ l, t.ver v = k then 1 else 0 := by
  intro l
  induction l with
  | nil => intro last _ _; simp [CTree.rootVersions]
  | cons v r ih =>
    intro last hs hl
    have hs' := List.pairwise_cons.1 hs
    have := ih (t.ver v) hs'.2 (Or.inl hs'.1)
    unfold CTree.rootVersions
    rw [List.filter_append, List.length_append, this]
    by_cases hk : k = t.ver v
    · subst hk
      rw [if_neg (c := t.ver v < t.ver u ∧ t.ver v ≠ t.ver v ∧ ∃ w ∈ r, t.ver w = t.ver v) (fun h => h.2.1 rfl)]
      by_cases h1 : t.ver v ≠ last ∧ t.ver v < t.ver u
      · rw [if_pos h1, if_pos ⟨h1.2, h1.1, v, by simp, rfl⟩]; simp
      · rw [if_neg h1, if_neg (fun h => h1 ⟨h.2.1, h.1⟩)]; rfl
    · have h0 : ((if t.ver v ≠ last ∧ t.ver v < t.ver u then [t.ver v] else []).filter (fun x => decide (x = k))).length = 0 := by
        split
        · rw [List.filter_cons_of_neg (by simpa using fun h => hk h.symm)]; rfl
        · rfl
      rw [h0, Nat.zero_add]
      have hiff : (k < t.ver u ∧ k ≠ t.ver v ∧ ∃ w ∈ r, t.ver w = k) ↔
          (k < t.ver u ∧ k ≠ last ∧ ∃ w ∈ v :: r, t.ver w = k) := by
        constructor
        · rintro ⟨a, _, w, hw, hwk⟩
          refine ⟨a, ?_, w, by simp [hw], hwk⟩
          intro hkl
          rcases hl with hl | hl
          · have h1 := hl v (by simp)
            have h2 := hs'.1 w hw
            omega
          · exact hl w (by simp [hw]) (by omega)
        · rintro ⟨a, _, w, hw, hwk⟩
          rcases List.mem_cons.1 hw with rfl | hw
          · exact absurd hwk.symm hk
          · exact ⟨a, hk, w, hw, hwk⟩
      simp only [hiff]

theorem versionRoots_count (t : CTree) (ch : Nat → List Nat) (k u : Nat) {o : List Nat} (hn : o.Nodup) :
    (t.versionRoots ch o k).count u =
      if u ∈ o then ((t.rootVersions u kInvalidVersion (ch u)).filter (fun x => decide (x = k))).length else 0 := by
  unfold CTree.versionRoots
  induction o with
  | nil => simp
  | cons a o ih =>
    have hn' := List.nodup_cons.1 hn
    rw [List.flatMap_cons, List.count_append, ih hn'.2]
    by_cases hau : a = u
    · subst hau
      rw [if_neg hn'.1, if_pos (by simp), List.map_const', List.count_replicate_self]; omega
    · rw [List.map_const', List.count_replicate, if_neg (by simpa using hau)]
      simp only [List.mem_cons, eq_comm (a := u), hau, false_or, Nat.zero_add]

/-- What the contraction phase stores in the tree: the history is well-formed, nodes that were never
contracted have the invalid version, contracted nodes have a valid start time. -/
structure TreeOK (t : CTree) (numVersions : Nat) : Prop where
  wf : t.forest.Wf numVersions
  rootVer : ∀ v < t.n, t.par v = v → t.ver v = kInvalidVersion
  versions : numVersions ≤ kInvalidVersion
  start : ∀ v < t.n, t.par v ≠ v → t.start v ≠ kInvalid

theorem version_ok {numVersions : Nat} (hT : TreeOK t numVersions) {ch : Nat → List Nat} (hc : ChildsOK t ch) {o : List Nat}
    (ho : o.Perm (List.range t.n)) {k : Nat} (hk : k < numVersions) : VersionOK t (t.versionRoots ch o k) k := by
  have hn : o.Nodup := ho.nodup_iff.2 List.nodup_range
  have hcnt : ∀ u, (t.versionRoots ch o k).count u = if u < t.n ∧ k < t.ver u ∧ (∃ v ∈ ch u, t.ver v = k) then 1 else 0 := by
    intro u
    rw [versionRoots_count t ch k u hn]
    by_cases hu : u < t.n
    · rw [if_pos (ho.mem_iff.2 (List.mem_range.2 hu)), rootVersions_count]
      · have : k ≠ kInvalidVersion := by have := hT.versions; omega
        simp [hu, this]
      · refine (hc.sorted u).imp ?_
        intro a b h
        have := (before_iff t a b).1 h
        omega
      · right
        intro v hv
        have h1 := (hc.mem u v).1 hv
        have h2 := hT.wf.ver_lt v ⟨h1.1, fun h => h1.2.2 (by have h' : t.par v = v := h; omega)⟩
        have h3 : t.ver v < numVersions := h2
        have := hT.versions
        omega
    · rw [if_neg (by rw [ho.mem_iff, List.mem_range]; exact hu), if_neg (fun h => hu h.1)]
  refine ⟨hT.wf.par_lt, hT.wf.acyclic, ?_, ?_, ?_⟩
  · intro v hv hp h
    have h1 := hT.rootVer v hv hp
    have := hT.versions
    omega
  · intro v he hne
    rw [hcnt, if_pos]
    refine ⟨hT.wf.par_lt v he.1, ?_, v, (hc.mem _ _).2 ⟨he.1, rfl, fun h => he.2.1 h.symm⟩, he.2.2⟩
    by_cases hr : t.par (t.par v) = t.par v
    · have h1 := hT.rootVer _ (hT.wf.par_lt v he.1) hr
      have := hT.versions
      have h2 : t.ver (t.par v) = kInvalidVersion := h1
      omega
    · have h1 : t.ver v ≤ t.ver (t.par v) := hT.wf.ver_le v ⟨he.1, he.2.1⟩ ⟨hT.wf.par_lt v he.1, hr⟩
      have := he.2.2
      omega
  · intro u hu h
    have h1 := List.count_pos_iff.2 hu
    rw [hcnt] at h1
    split at h1
    · omega
    · omega

end Uncontract
end Verif
