import Verif.Lemmas.Dyn1
/-! Lemmas: the linked lists of the incident net arrays -/
namespace Verif
namespace Dyn
open SMap (wr)

variable {nx pv nx' pv' : Nat → Nat}

theorem Path.nx_pv {a b : Nat} {l : List Nat} (h : Path nx pv a l b) : ∀ x ∈ l ++ [b], nx (pv x) = x := by
  induction l generalizing a with
  | nil =>
    intro x hx
    simp only [List.nil_append, List.mem_singleton] at hx
    subst hx
    rw [h.2, h.1]
  | cons y l ih =>
    intro x hx
    simp only [List.cons_append, List.mem_cons] at hx
    rcases hx with rfl | hx
    · rw [h.2.1, h.1]
    · exact ih h.2.2 x hx

theorem Path.mem_pv {a b : Nat} {l : List Nat} (h : Path nx pv a l b) : ∀ x ∈ l ++ [b], pv x ∈ a :: l := by
  induction l generalizing a with
  | nil =>
    intro x hx
    simp only [List.nil_append, List.mem_singleton] at hx
    subst hx
    rw [h.2]; simp
  | cons y l ih =>
    intro x hx
    simp only [List.cons_append, List.mem_cons] at hx
    rcases hx with rfl | hx
    · rw [h.2.1]; simp
    · exact List.mem_cons_of_mem _ (ih h.2.2 x hx)

theorem Path.mem_nx {a b : Nat} {l : List Nat} (h : Path nx pv a l b) : ∀ x ∈ a :: l, nx x ∈ l ++ [b] := by
  induction l generalizing a with
  | nil =>
    intro x hx
    simp only [List.mem_singleton] at hx
    subst hx
    rw [h.1]; simp
  | cons y l ih =>
    intro x hx
    rw [List.mem_cons] at hx
    rcases hx with rfl | hx
    · rw [h.1]; simp
    · exact List.mem_cons_of_mem _ (ih h.2.2 x hx)

/-- removing one node from a path -/
theorem Path.remove {a b c : Nat} {p q : List Nat} (h : Path nx pv a (p ++ c :: q) b) (hnd : (a :: (p ++ c :: q)).Nodup)
    (hb : b ∉ p ++ c :: q) :
    Path (wr (wr nx (pv c) (nx c)) c c) (wr (wr pv (nx c) (pv c)) c c) a (p ++ q) b := by
  rw [Path.append_iff] at h
  obtain ⟨h1, h2⟩ := h
  obtain ⟨hl1, hl2⟩ := h1.last
  have hap : (a :: p).Nodup := by
    rw [← List.cons_append] at hnd
    exact (List.nodup_append.1 hnd).1
  have hdis : ∀ x ∈ a :: p, x ∉ c :: q := by
    rw [← List.cons_append] at hnd
    intro x hx hx'
    exact (List.nodup_append.1 hnd).2.2 x hx x hx' rfl
  have hcq : (c :: q).Nodup := by
    rw [← List.cons_append] at hnd
    exact (List.nodup_append.1 hnd).2.1
  have hcl : c ≠ lastOf a p := fun hh => hdis _ (lastOf_mem a p) (by rw [← hh]; simp)
  have hcp : ∀ x ∈ a :: p, x ≠ c := fun x hx hh => hdis x hx (by rw [hh]; simp)
  match q, h2, hdis, hcq, hb with
  | [], h2, hdis, hcq, hb =>
    obtain ⟨h3, h4⟩ := h2
    rw [List.append_nil]
    have hbc : b ≠ c := fun hh => hb (by rw [hh]; simp)
    refine h1.retarget ?_ ?_ ?_ ?_ hap
    · intro x hx hxl
      rw [wr_other _ _ (hcp x hx), wr_other]
      rw [hl2]; exact hxl
    · intro x hx
      rw [wr_other _ _ (hcp x (List.mem_cons_of_mem _ hx)), wr_other]
      rw [h3]
      rintro rfl
      exact hb (by simp [hx])
    · rw [wr_other _ _ hcl.symm, ← hl2, wr_same]; exact h3
    · rw [wr_other _ _ hbc, h3, wr_same, hl2]
  | y :: q, h2, hdis, hcq, hb =>
    obtain ⟨h3, h4, h5⟩ := h2
    rw [Path.append_iff]
    have hyc : y ≠ c := by
      rintro rfl
      exact (List.nodup_cons.1 hcq).1 (by simp)
    refine ⟨h1.retarget ?_ ?_ ?_ ?_ hap, h5.congr ?_ ?_⟩
    · intro x hx hxl
      rw [wr_other _ _ (hcp x hx), wr_other]
      rw [hl2]; exact hxl
    · intro x hx
      rw [wr_other _ _ (hcp x (List.mem_cons_of_mem _ hx)), wr_other]
      rw [h3]
      rintro rfl
      exact hdis x (List.mem_cons_of_mem _ hx) (by simp)
    · rw [wr_other _ _ hcl.symm, ← hl2, wr_same]; exact h3
    · rw [wr_other _ _ hyc, h3, wr_same, hl2]
    · intro x hx
      have hxc : x ≠ c := by
        rintro rfl
        exact (List.nodup_cons.1 hcq).1 hx
      rw [wr_other _ _ hxc, wr_other]
      rw [hl2]
      rintro rfl
      exact hdis _ (lastOf_mem a p) (List.mem_cons_of_mem _ hx)
    · intro x hx
      have hxc : x ≠ c := by
        rintro rfl
        rw [List.mem_append, List.mem_singleton] at hx
        rcases hx with hx | rfl
        · exact (List.nodup_cons.1 hcq).1 (List.mem_cons_of_mem _ hx)
        · exact hb (by simp)
      rw [wr_other _ _ hxc, wr_other]
      rw [h3]
      rintro rfl
      rw [List.mem_append, List.mem_singleton] at hx
      rcases hx with hx | rfl
      · exact (List.nodup_cons.1 (List.nodup_cons.1 hcq).2).1 hx
      · exact hb (by simp)

/-- concatenating two circular lists -/
theorem Path.concat {u v : Nat} {r t : List Nat} (h1 : Path nx pv u r u) (h2 : Path nx pv v t v)
    (n1 : (u :: r).Nodup) (n2 : (v :: t).Nodup) (hd : ∀ x ∈ u :: r, x ∉ v :: t) :
    Path (wr (wr nx (pv u) v) (pv v) u) (wr (wr pv u (pv v)) v (pv u)) u (r ++ v :: t) u := by
  have a1 := h1.last
  have a2 := h2.last
  have huv : u ≠ v := fun hh => hd u (by simp) (by rw [hh]; simp)
  have e1 : lastOf u r ≠ lastOf v t := fun hh => hd _ (lastOf_mem u r) (by rw [hh]; exact lastOf_mem v t)
  rw [Path.append_iff]
  constructor
  · refine h1.retarget ?_ ?_ ?_ ?_ n1
    · intro x hx hxl
      rw [wr_other, wr_other]
      · rw [a1.2]; exact hxl
      · rw [a2.2]
        rintro rfl
        exact hd _ hx (lastOf_mem v t)
    · intro x hx
      rw [wr_other, wr_other]
      · rintro rfl; exact (List.nodup_cons.1 n1).1 hx
      · rintro rfl; exact hd x (List.mem_cons_of_mem _ hx) (by simp)
    · rw [wr_other _ _ (by rw [a2.2]; exact e1), a1.2, wr_same]
    · rw [wr_same, a1.2]
  · refine h2.retarget ?_ ?_ ?_ ?_ n2
    · intro x hx hxl
      rw [wr_other, wr_other]
      · rw [a1.2]
        rintro rfl
        exact hd _ (lastOf_mem u r) hx
      · rw [a2.2]; exact hxl
    · intro x hx
      rw [wr_other, wr_other]
      · rintro rfl; exact hd x (by simp) (List.mem_cons_of_mem _ hx)
      · rintro rfl; exact (List.nodup_cons.1 n2).1 hx
    · rw [a2.2, wr_same]
    · rw [wr_other _ _ huv, wr_same, a2.2]

/-- The list with head `u` contains the nodes `u :: r` -/
structure RingRep (s : INA) (u : Nat) (r : List Nat) : Prop where
  nodup : (u :: r).Nodup
  ring : Path s.nx s.pv u r u
  it : Path s.inx s.ipv u (r.filter (fun x => decide (s.sz x ≠ 0))) u
  head : s.hd u = true
  inner : ∀ x ∈ r, s.hd x = false
  empty : ∀ x ∈ r, s.sz x = 0 → s.inx x = x ∧ s.ipv x = x

variable {s s' : INA} {u v : Nat} {r t : List Nat}

theorem RingRep.frame (h : RingRep s u r) (h1 : ∀ x ∈ u :: r, s'.nx x = s.nx x ∧ s'.pv x = s.pv x ∧ s'.inx x = s.inx x ∧
    s'.ipv x = s.ipv x ∧ s'.hd x = s.hd x) (h2 : ∀ x ∈ r, s'.sz x = s.sz x) : RingRep s' u r := by
  have hf : r.filter (fun x => decide (s'.sz x ≠ 0)) = r.filter (fun x => decide (s.sz x ≠ 0)) := by
    refine List.filter_congr ?_
    intro x hx; rw [h2 x hx]
  have hsub : ∀ x ∈ r ++ [u], x ∈ u :: r := by intro x hx; simp at hx ⊢; tauto
  have hfs : ∀ x ∈ r.filter (fun x => decide (s.sz x ≠ 0)), x ∈ r := fun x hx => (List.mem_filter.1 hx).1
  refine ⟨h.nodup, h.ring.congr (fun x hx => (h1 x hx).1) (fun x hx => (h1 x (hsub x hx)).2.1), ?_, ?_, ?_, ?_⟩
  · rw [hf]
    refine h.it.congr (fun x hx => ?_) (fun x hx => ?_)
    · rw [List.mem_cons] at hx
      rcases hx with rfl | hx
      · exact (h1 x (by simp)).2.2.1
      · exact (h1 x (List.mem_cons_of_mem _ (hfs x hx))).2.2.1
    · rw [List.mem_append, List.mem_singleton] at hx
      rcases hx with hx | rfl
      · exact (h1 x (List.mem_cons_of_mem _ (hfs x hx))).2.2.2.1
      · exact (h1 x (by simp)).2.2.2.1
  · rw [(h1 u (by simp)).2.2.2.2]; exact h.head
  · intro x hx
    rw [(h1 x (List.mem_cons_of_mem _ hx)).2.2.2.2]; exact h.inner x hx
  · intro x hx h0
    have hx' : x ∈ u :: r := List.mem_cons_of_mem _ hx
    rw [(h1 x hx').2.2.1, (h1 x hx').2.2.2.1]
    exact h.empty x hx (by rw [← h2 x hx]; exact h0)

/-! ### Iteration -/

theorem netsFrom_spec : ∀ (k : Nat) (c : Nat) (l : List Nat), l.length < k → Path s.inx s.ipv c l u → s.hd u = true → (c :: l).Nodup →
    (∀ x ∈ l, s.hd x = false) → s.netsFrom k c = some (l.flatMap s.active) := by
  intro k
  induction k with
  | zero => intro c l h; omega
  | succ k ih =>
    intro c l hk hp hu hnd hl
    unfold INA.netsFrom
    cases l with
    | nil =>
      rw [if_pos (Or.inl (by rw [hp.1]; exact hu))]
      rfl
    | cons x l =>
      obtain ⟨h1, h2, h3⟩ := hp
      have hxc : x ≠ c := by rintro rfl; exact (List.nodup_cons.1 hnd).1 (by simp)
      rw [h1, if_neg (by rw [hl x (by simp)]; simp [hxc])]
      rw [ih x l (by simp at hk; omega) h3 hu (List.nodup_cons.1 hnd).2 (fun y hy => hl y (List.mem_cons_of_mem _ hy))]
      rfl

theorem flatMap_active_filter (r : List Nat) : (r.filter (fun x => decide (s.sz x ≠ 0))).flatMap s.active = r.flatMap s.active := by
  induction r with
  | nil => rfl
  | cons x r ih =>
    rw [List.filter_cons]
    by_cases h : s.sz x = 0
    · rw [if_neg (by simp [h]), ih, List.flatMap_cons]
      have : s.active x = [] := by unfold INA.active; rw [h]; rfl
      rw [this]; rfl
    · rw [if_pos (by simp [h]), List.flatMap_cons, List.flatMap_cons, ih]

/-- the iterator visits the active nets of all lists -/
theorem RingRep.incidentEdges (h : RingRep s u r) (hr : r.length ≤ s.n) :
    s.incidentEdges u = some ((u :: r).flatMap s.active) := by
  unfold INA.incidentEdges
  have hlen : (r.filter (fun x => decide (s.sz x ≠ 0))).length ≤ r.length := List.length_filter_le _ _
  have hsub : (r.filter (fun x => decide (s.sz x ≠ 0))).Sublist r := List.filter_sublist
  rw [netsFrom_spec (u := u) (s.n + 1) u _ (by omega) h.it h.head
    (hsub.cons_cons u |>.nodup h.nodup) (fun x hx => h.inner x (hsub.subset hx))]
  rw [flatMap_active_filter, Option.map_some, List.flatMap_cons]

/-! ### append -/

theorem RingRep.append (h1 : RingRep s u r) (h2 : RingRep s v t) (hd : ∀ x ∈ u :: r, x ∉ v :: t) :
    RingRep (s.append u v) u (r ++ v :: t) := by
  have huv : u ≠ v := fun hh => hd u (by simp) (by rw [hh]; simp)
  have hnd : (u :: (r ++ v :: t)).Nodup := by
    rw [← List.cons_append, List.nodup_append]
    refine ⟨h1.nodup, h2.nodup, ?_⟩
    rintro x hx y hy rfl
    exact hd x hx hy
  have hvr : v ∉ r := fun h => hd v (List.mem_cons_of_mem _ h) (by simp)
  have hvt : v ∉ t := (List.nodup_cons.1 h2.nodup).1
  have hur : u ∉ r := (List.nodup_cons.1 h1.nodup).1
  have hut : u ∉ t := fun h => hd u (by simp) (List.mem_cons_of_mem _ h)
  let f : Nat → Bool := fun x => decide (s.sz x ≠ 0)
  have sub1 : (r.filter f).Sublist r := List.filter_sublist
  have sub2 : (t.filter f).Sublist t := List.filter_sublist
  have n1 : (u :: r.filter f).Nodup := (sub1.cons_cons u).nodup h1.nodup
  have n2 : (v :: t.filter f).Nodup := (sub2.cons_cons v).nodup h2.nodup
  have hd' : ∀ x ∈ u :: r.filter f, x ∉ v :: t.filter f := by
    intro x hx hy
    exact hd x ((sub1.cons_cons u).subset hx) ((sub2.cons_cons v).subset hy)
  have hring := Path.concat h1.ring h2.ring h1.nodup h2.nodup hd
  have hit := Path.concat h1.it h2.it n1 n2 hd'
  have lu : s.ipv u ∈ u :: r.filter f := h1.it.mem_pv u (by simp)
  have lv : s.ipv v ∈ v :: t.filter f := h2.it.mem_pv v (by simp)
  -- empty lists are not touched
  have hemp : ∀ x ∈ r ++ t, s.sz x = 0 →
      (s.link u v).inx x = x ∧ (s.link u v).ipv x = x := by
    intro x hx h0
    have hxu : x ≠ u := by
      rintro rfl
      rw [List.mem_append] at hx
      rcases hx with hx | hx
      · exact hur hx
      · exact hut hx
    have hxv : x ≠ v := by
      rintro rfl
      rw [List.mem_append] at hx
      rcases hx with hx | hx
      · exact hvr hx
      · exact hvt hx
    have e1 : x ≠ s.ipv u := by
      rintro rfl
      rw [List.mem_cons] at lu
      rcases lu with lu | lu
      · exact hxu lu
      · exact absurd h0 (by simpa [f] using (List.mem_filter.1 lu).2)
    have e2 : x ≠ s.ipv v := by
      rintro rfl
      rw [List.mem_cons] at lv
      rcases lv with lv | lv
      · exact hxv lv
      · exact absurd h0 (by simpa [f] using (List.mem_filter.1 lv).2)
    have h00 : s.inx x = x ∧ s.ipv x = x := by
      rw [List.mem_append] at hx
      rcases hx with hx | hx
      · exact h1.empty x hx h0
      · exact h2.empty x hx h0
    constructor
    · show wr (wr s.inx (s.ipv u) v) (s.ipv v) u x = x
      rw [wr_other _ _ e2, wr_other _ _ e1]; exact h00.1
    · show wr (wr s.ipv u (s.ipv v)) v (s.ipv u) x = x
      rw [wr_other _ _ hxv, wr_other _ _ hxu]; exact h00.2
  have hhd : ∀ x, (s.link u v).hd x = if x = v then false else s.hd x := by
    intro x
    show wr s.hd v false x = _
    by_cases hx : x = v
    · rw [if_pos hx, hx, wr_same]
    · rw [if_neg hx, wr_other _ _ hx]
  have hinner : ∀ x ∈ r ++ v :: t, (s.link u v).hd x = false := by
    intro x hx
    rw [hhd]
    split
    · rfl
    · rename_i hxv
      rw [List.mem_append, List.mem_cons] at hx
      rcases hx with hx | hx | hx
      · exact h1.inner x hx
      · exact absurd hx hxv
      · exact h2.inner x hx
  unfold INA.append
  split
  · rename_i h0
    have hf : ((r ++ v :: t).filter f) = r.filter f ++ t.filter f := by
      rw [List.filter_append, List.filter_cons, if_neg (by simp [f, h0])]
    refine ⟨hnd, hring, ?_, by show (s.link u v).hd u = true; rw [hhd, if_neg huv]; exact h1.head, hinner, ?_⟩
    · show Path _ _ u ((r ++ v :: t).filter f) u
      rw [hf]
      refine Path.remove (nx := (s.link u v).inx) (pv := (s.link u v).ipv) hit ?_ ?_
      · rw [← List.cons_append, List.nodup_append]
        refine ⟨n1, n2, ?_⟩
        rintro x hx y hy rfl
        exact hd' x hx hy
      · rw [List.mem_append, List.mem_cons]
        rintro (h | h | h)
        · exact hur (sub1.subset h)
        · exact huv h
        · exact hut (sub2.subset h)
    · intro x hx hx0
      have hx0' : s.sz x = 0 := hx0
      show wr (wr (s.link u v).inx ((s.link u v).ipv v) ((s.link u v).inx v)) v v x = x ∧
        wr (wr (s.link u v).ipv ((s.link u v).inx v) ((s.link u v).ipv v)) v v x = x
      by_cases hxv : x = v
      · subst hxv
        rw [wr_same, wr_same]; exact ⟨rfl, rfl⟩
      · have hxrt : x ∈ r ++ t := by
          rw [List.mem_append, List.mem_cons] at hx
          rw [List.mem_append]
          tauto
        have hxu : x ≠ u := by
          rintro rfl
          rw [List.mem_append] at hxrt
          rcases hxrt with hx | hx
          · exact hur hx
          · exact hut hx
        rw [wr_other _ _ hxv, wr_other _ _ hxv]
        have hm := hit.mem_pv v (by simp)
        have hm2 := hit.mem_nx v (by simp)
        have hno : x ∉ u :: (r.filter f ++ v :: t.filter f) := by
          rw [List.mem_cons, List.mem_append, List.mem_cons, List.mem_filter, List.mem_filter]
          rintro (h | ⟨_, h⟩ | h | ⟨_, h⟩)
          · exact hxu h
          · simp [f, hx0'] at h
          · exact hxv h
          · simp [f, hx0'] at h
        rw [wr_other, wr_other]
        · exact hemp x hxrt hx0'
        · rintro rfl
          refine hno ?_
          rw [List.mem_append, List.mem_singleton] at hm2
          rcases hm2 with h | h
          · exact List.mem_cons_of_mem _ h
          · rw [List.mem_cons]; exact Or.inl h
        · rintro rfl
          exact hno hm
  · rename_i h0
    have hf : ((r ++ v :: t).filter f) = r.filter f ++ v :: t.filter f := by
      rw [List.filter_append, List.filter_cons, if_pos (by simp [f, h0])]
    refine ⟨hnd, hring, ?_, by rw [hhd, if_neg huv]; exact h1.head, hinner, ?_⟩
    · show Path _ _ u ((r ++ v :: t).filter f) u
      rw [hf]
      exact hit
    · intro x hx hx0
      have hx0' : s.sz x = 0 := hx0
      refine hemp x ?_ hx0'
      rw [List.mem_append, List.mem_cons] at hx
      rw [List.mem_append]
      rcases hx with h | h | h
      · exact Or.inl h
      · exact absurd (h ▸ hx0') h0
      · exact Or.inr h

end Dyn
end Verif
