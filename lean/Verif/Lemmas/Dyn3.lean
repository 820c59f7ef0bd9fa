import Verif.Lemmas.Dyn2
/-! Lemmas: `append` and `removeIncidentNets` on the whole array -/
namespace Verif
namespace Dyn
open SMap (wr)

variable {s s' : INA} {u v : Nat} {r t : List Nat}

/-! ### append -/

theorem append_fields (s : INA) (u v : Nat) :
    (s.append u v).ent = s.ent ∧ (s.append u v).sz = s.sz ∧ (s.append u v).vr = s.vr ∧ (s.append u v).dg = s.dg ∧
    (s.append u v).n = s.n ∧ (s.append u v).tl = wr s.tl v (s.pv v) ∧ (s.append u v).hd = wr s.hd v false := by
  unfold INA.append
  split <;> exact ⟨rfl, rfl, rfl, rfl, rfl, rfl, rfl⟩

theorem append_frame (h1 : RingRep s u r) (h2 : RingRep s v t) {x : Nat} (hx1 : x ∉ u :: r) (hx2 : x ∉ v :: t) :
    (s.append u v).nx x = s.nx x ∧ (s.append u v).pv x = s.pv x ∧ (s.append u v).inx x = s.inx x ∧
    (s.append u v).ipv x = s.ipv x ∧ (s.append u v).hd x = s.hd x := by
  have a1 : s.pv u ∈ u :: r := h1.ring.mem_pv u (by simp)
  have a2 : s.pv v ∈ v :: t := h2.ring.mem_pv v (by simp)
  have sub : ∀ {y : Nat} {w : Nat} {l : List Nat}, y ∈ w :: l.filter (fun x => decide (s.sz x ≠ 0)) → y ∈ w :: l := by
    intro y w l h
    exact (List.filter_sublist.cons_cons w).subset h
  have a3 : s.ipv u ∈ u :: r := sub (h1.it.mem_pv u (by simp))
  have a4 : s.ipv v ∈ v :: t := sub (h2.it.mem_pv v (by simp))
  have hxu : x ≠ u := fun h => hx1 (by rw [h]; simp)
  have hxv : x ≠ v := fun h => hx2 (by rw [h]; simp)
  have n1 : x ≠ s.pv u := fun h => hx1 (h ▸ a1)
  have n2 : x ≠ s.pv v := fun h => hx2 (h ▸ a2)
  have n3 : x ≠ s.ipv u := fun h => hx1 (h ▸ a3)
  have n4 : x ≠ s.ipv v := fun h => hx2 (h ▸ a4)
  have l1 : (s.link u v).nx x = s.nx x := by
    show wr (wr s.nx (s.pv u) v) (s.pv v) u x = _
    rw [wr_other _ _ n2, wr_other _ _ n1]
  have l2 : (s.link u v).pv x = s.pv x := by
    show wr (wr s.pv u (s.pv v)) v (s.pv u) x = _
    rw [wr_other _ _ hxv, wr_other _ _ hxu]
  have l3 : (s.link u v).inx x = s.inx x := by
    show wr (wr s.inx (s.ipv u) v) (s.ipv v) u x = _
    rw [wr_other _ _ n4, wr_other _ _ n3]
  have l4 : (s.link u v).ipv x = s.ipv x := by
    show wr (wr s.ipv u (s.ipv v)) v (s.ipv u) x = _
    rw [wr_other _ _ hxv, wr_other _ _ hxu]
  have l5 : (s.link u v).hd x = s.hd x := by
    show wr s.hd v false x = _
    rw [wr_other _ _ hxv]
  unfold INA.append
  split
  · refine ⟨l1, l2, ?_, ?_, l5⟩
    · show wr (wr (s.link u v).inx ((s.link u v).ipv v) ((s.link u v).inx v)) v v x = _
      have e : (s.link u v).ipv v = s.ipv u := by
        show wr (wr s.ipv u (s.ipv v)) v (s.ipv u) v = _
        rw [wr_same]
      rw [wr_other _ _ hxv, wr_other _ _ (by rw [e]; exact n3)]
      exact l3
    · show wr (wr (s.link u v).ipv ((s.link u v).inx v) ((s.link u v).ipv v)) v v x = _
      have e : (s.link u v).inx v ∈ u :: (v :: t) := by
        show wr (wr s.inx (s.ipv u) v) (s.ipv v) u v ∈ _
        by_cases hh : v = s.ipv v
        · rw [← hh, wr_same]; simp
        · rw [wr_other _ _ hh]
          by_cases hh2 : v = s.ipv u
          · rw [← hh2, wr_same]; simp
          · rw [wr_other _ _ hh2]
            have := h2.it.mem_nx v (by simp)
            rw [List.mem_append, List.mem_singleton] at this
            rcases this with h | h
            · exact List.mem_cons_of_mem _ (sub (List.mem_cons_of_mem _ h))
            · rw [h]; simp
      rw [wr_other _ _ hxv, wr_other]
      · exact l4
      · intro hh
        rw [← hh] at e
        rw [List.mem_cons] at e
        rcases e with e | e
        · exact hxu e
        · exact hx2 e
  · exact ⟨l1, l2, l3, l4, l5⟩

/-! ### removeIncidentNets -/

/-- result of `rmEntries` for the array of `x` -/
def INA.rmd (s : INA) (flag : Nat → Bool) (x : Nat) : List (Nat × Int) × Nat := rmEntries flag (s.vr x + 1) (s.ent x) 0 (s.sz x)

theorem rmNode_fields (s : INA) (flag : Nat → Bool) (u c : Nat) :
    (s.rmNode flag u c).ent = wr s.ent c (s.rmd flag c).1 ∧ (s.rmNode flag u c).sz = wr s.sz c (s.rmd flag c).2 ∧
    (s.rmNode flag u c).vr = wr s.vr c (s.vr c + 1) ∧
    (s.rmNode flag u c).dg = wr s.dg u (s.dg u - ((s.sz c - (s.rmd flag c).2 : Nat) : Int)) ∧
    (s.rmNode flag u c).n = s.n ∧ (s.rmNode flag u c).tl = s.tl ∧ (s.rmNode flag u c).hd = s.hd ∧
    (s.rmNode flag u c).nx = s.nx ∧ (s.rmNode flag u c).pv = s.pv := by
  unfold INA.rmNode
  split <;> exact ⟨rfl, rfl, rfl, rfl, rfl, rfl, rfl, rfl, rfl⟩

theorem rmEntries_le (flag : Nat → Bool) (nv : Int) (l : List (Nat × Int)) (i last : Nat) (h : i ≤ last) :
    (rmEntries flag nv l i last).2 ≤ last := by
  induction l, i, last using rmEntries.induct (flag := flag) (nv := nv) with
  | case1 l i last hi hf ih =>
    unfold rmEntries
    rw [if_pos hi, if_pos hf]
    have := ih (by omega)
    omega
  | case2 l i last hi hf ih =>
    unfold rmEntries
    rw [if_pos hi, if_neg hf]
    have := ih (by omega)
    omega
  | case3 l i last hi =>
    unfold rmEntries
    rw [if_neg hi]

theorem filter_erase_split {f g : Nat → Bool} {r : List Nat} (hr : r.Nodup) {c : Nat} (hc : c ∈ r) (hfc : f c = true) (hgc : g c = false)
    (hfg : ∀ x ∈ r, x ≠ c → g x = f x) : ∃ p q, r.filter f = p ++ c :: q ∧ r.filter g = p ++ q := by
  obtain ⟨a, b, rfl⟩ := List.append_of_mem hc
  rw [List.nodup_append, List.nodup_cons] at hr
  refine ⟨a.filter f, b.filter f, ?_, ?_⟩
  · rw [List.filter_append, List.filter_cons, if_pos hfc]
  · rw [List.filter_append, List.filter_cons, if_neg (by simp [hgc])]
    congr 1
    · refine List.filter_congr ?_
      intro x hx
      exact hfg x (by simp [hx]) (by rintro rfl; exact hr.2.2 x hx x (by simp) rfl)
    · refine List.filter_congr ?_
      intro x hx
      exact hfg x (by simp [hx]) (by rintro rfl; exact hr.2.1.1 hx)

theorem RingRep.rmNode (h : RingRep s u r) (flag : Nat → Bool) {c : Nat} (hc : c ∈ u :: r) :
    RingRep (s.rmNode flag u c) u r ∧
    ∀ x, x ∉ u :: r → (s.rmNode flag u c).inx x = s.inx x ∧ (s.rmNode flag u c).ipv x = s.ipv x := by
  obtain ⟨f1, f2, f3, f4, f5, f6, f7, f8, f9⟩ := rmNode_fields s flag u c
  have hle : (s.rmd flag c).2 ≤ s.sz c := rmEntries_le _ _ _ _ _ (Nat.zero_le _)
  have hsz : ∀ x, (s.rmNode flag u c).sz x = if x = c then (s.rmd flag c).2 else s.sz x := by
    intro x
    rw [f2]
    by_cases hx : x = c
    · rw [if_pos hx, hx, wr_same]
    · rw [if_neg hx, wr_other _ _ hx]
  have hsa : (s.rmArr flag u c).sz c = (s.rmd flag c).2 := by
    show wr s.sz c (s.rmd flag c).2 c = _
    rw [wr_same]
  have hur : u ∉ r := (List.nodup_cons.1 h.nodup).1
  have hrn : r.Nodup := (List.nodup_cons.1 h.nodup).2
  by_cases hz : (s.rmd flag c).2 = 0 ∧ c ≠ u
  · have hcr : c ∈ r := by
      rw [List.mem_cons] at hc
      exact hc.resolve_left hz.2
    have e : s.rmNode flag u c = (s.rmArr flag u c).removeEmpty c := by
      unfold INA.rmNode
      rw [if_pos (by rw [hsa]; exact hz)]
    have einx : (s.rmNode flag u c).inx = wr (wr s.inx (s.ipv c) (s.inx c)) c c := by rw [e]; rfl
    have eipv : (s.rmNode flag u c).ipv = wr (wr s.ipv (s.inx c) (s.ipv c)) c c := by rw [e]; rfl
    by_cases h0 : s.sz c = 0
    · -- already empty
      obtain ⟨g1, g2⟩ := h.empty c hcr h0
      have ei : (s.rmNode flag u c).inx = s.inx := by
        rw [einx, g1, g2]
        funext x
        by_cases hx : x = c
        · rw [hx, wr_same, g1]
        · rw [wr_other _ _ hx, wr_other _ _ hx]
      have ep : (s.rmNode flag u c).ipv = s.ipv := by
        rw [eipv, g1, g2]
        funext x
        by_cases hx : x = c
        · rw [hx, wr_same, g2]
        · rw [wr_other _ _ hx, wr_other _ _ hx]
      refine ⟨h.frame ?_ ?_, fun x _ => by rw [ei, ep]; exact ⟨rfl, rfl⟩⟩
      · intro x _
        rw [ei, ep, f7, f8, f9]
        exact ⟨rfl, rfl, rfl, rfl, rfl⟩
      · intro x _
        rw [hsz]
        split
        · rename_i hx; rw [hx, h0, hz.1]
        · rfl
    · obtain ⟨p, q, hp, hq⟩ := filter_erase_split (f := fun x => decide (s.sz x ≠ 0))
        (g := fun x => decide ((s.rmNode flag u c).sz x ≠ 0)) hrn hcr (by simp [h0]) (by rw [hsz, if_pos rfl, hz.1]; rfl)
        (by intro x _ hx; rw [hsz, if_neg hx])
      have hit := h.it
      rw [hp] at hit
      have hsub : (u :: (p ++ c :: q)).Sublist (u :: r) := by
        rw [← hp]; exact List.filter_sublist.cons_cons u
      have hnd2 := hsub.nodup h.nodup
      have hup : u ∉ p ++ c :: q := (List.nodup_cons.1 hnd2).1
      have m1 : s.ipv c ∈ u :: (p ++ c :: q) := hit.mem_pv c (by simp)
      have m2 : s.inx c ∈ (p ++ c :: q) ++ [u] := hit.mem_nx c (by simp)
      have m2' : s.inx c ∈ u :: (p ++ c :: q) := by
        rw [List.mem_append, List.mem_singleton] at m2
        rcases m2 with h | h
        · exact List.mem_cons_of_mem _ h
        · rw [h]; simp
      have hother : ∀ x, x ∉ u :: (p ++ c :: q) → (s.rmNode flag u c).inx x = s.inx x ∧ (s.rmNode flag u c).ipv x = s.ipv x := by
        intro x hx
        have hxc : x ≠ c := by rintro rfl; exact hx (by simp)
        constructor
        · rw [einx, wr_other _ _ hxc, wr_other _ _ (by rintro rfl; exact hx m1)]
        · rw [eipv, wr_other _ _ hxc, wr_other _ _ (by rintro rfl; exact hx m2')]
      refine ⟨⟨h.nodup, ?_, ?_, ?_, ?_, ?_⟩, fun x hx => hother x (fun h => hx (hsub.subset h))⟩
      · rw [f8, f9]; exact h.ring
      · rw [hq, einx, eipv]
        exact Path.remove hit hnd2 hup
      · rw [f7]; exact h.head
      · rw [f7]; exact h.inner
      · intro x hx hx0
        by_cases hxc : x = c
        · rw [hxc, einx, eipv, wr_same, wr_same]; exact ⟨rfl, rfl⟩
        · rw [hsz, if_neg hxc] at hx0
          have hno : x ∉ u :: (p ++ c :: q) := by
            rw [← hp, List.mem_cons, List.mem_filter]
            rintro (h | ⟨_, h⟩)
            · rw [h] at hx; exact hur hx
            · simp [hx0] at h
          rw [(hother x hno).1, (hother x hno).2]
          exact h.empty x hx hx0
  · have e : s.rmNode flag u c = s.rmArr flag u c := by
      unfold INA.rmNode
      rw [if_neg (by rw [hsa]; exact hz)]
    have einx : (s.rmNode flag u c).inx = s.inx := by rw [e]; rfl
    have eipv : (s.rmNode flag u c).ipv = s.ipv := by rw [e]; rfl
    refine ⟨⟨h.nodup, by rw [f8, f9]; exact h.ring, ?_, by rw [f7]; exact h.head, by rw [f7]; exact h.inner, ?_⟩,
      fun x _ => by rw [einx, eipv]; exact ⟨rfl, rfl⟩⟩
    · have hf : r.filter (fun x => decide ((s.rmNode flag u c).sz x ≠ 0)) = r.filter (fun x => decide (s.sz x ≠ 0)) := by
        refine List.filter_congr ?_
        intro x hx
        rw [hsz]
        split
        · rename_i hxc
          subst hxc
          have hxu : x ≠ u := by rintro rfl; exact hur hx
          have hn : (s.rmd flag x).2 ≠ 0 := fun h => hz ⟨h, hxu⟩
          have : s.sz x ≠ 0 := by omega
          simp [hn, this]
        · rfl
      rw [hf, einx, eipv]; exact h.it
    · intro x hx hx0
      rw [einx, eipv]
      refine h.empty x hx ?_
      rw [hsz] at hx0
      split at hx0
      · rename_i hxc
        subst hxc
        have hxu : x ≠ u := by rintro rfl; exact hur hx
        exact absurd ⟨hx0, hxu⟩ hz
      · exact hx0

/-- What `removeIncidentNets` changes: the arrays of the nodes in the list, the degree of its head and
the links between non-empty lists. -/
structure Removed (s : INA) (flag : Nat → Bool) (u : Nat) (l : List Nat) (s' : INA) : Prop where
  nEq : s'.n = s.n
  nx : s'.nx = s.nx
  pv : s'.pv = s.pv
  tl : s'.tl = s.tl
  hd : s'.hd = s.hd
  entIn : ∀ x ∈ l, s'.ent x = (s.rmd flag x).1
  szIn : ∀ x ∈ l, s'.sz x = (s.rmd flag x).2
  vrIn : ∀ x ∈ l, s'.vr x = s.vr x + 1
  entOut : ∀ x, x ∉ l → s'.ent x = s.ent x
  szOut : ∀ x, x ∉ l → s'.sz x = s.sz x
  vrOut : ∀ x, x ∉ l → s'.vr x = s.vr x
  dgIn : s'.dg u = s.dg u - ((l.map (fun x => (s.sz x : Int) - (s.rmd flag x).2)).sum)
  dgOut : ∀ x, x ≠ u → s'.dg x = s.dg x

theorem rmLoop_spec {flag : Nat → Bool} (hr : RingRep s u r) : ∀ (q : List Nat) (k : Nat) (c : Nat) (p : List Nat) (s0 : INA),
    u :: r = p ++ c :: q → q.length < k → RingRep s0 u r → Removed s flag u p s0 →
    (∀ x, x ∉ u :: r → s0.inx x = s.inx x ∧ s0.ipv x = s.ipv x) →
    ∃ s', INA.rmLoop flag u k c s0 = some s' ∧ RingRep s' u r ∧ Removed s flag u (u :: r) s' ∧
      (∀ x, x ∉ u :: r → s'.inx x = s.inx x ∧ s'.ipv x = s.ipv x) := by
  intro q
  induction q with
  | nil =>
    intro k c p s0 heq hk h0 hR hI
    match k, hk with
    | k + 1, _ =>
      have hc : c ∈ u :: r := by rw [heq]; simp
      have hnp : c ∉ p := by
        have := h0.nodup
        rw [heq, List.nodup_append] at this
        intro hcp
        exact this.2.2 c hcp c (by simp) rfl
      obtain ⟨f1, f2, f3, f4, f5, f6, f7, f8, f9⟩ := rmNode_fields s0 flag u c
      obtain ⟨g1, g2⟩ := h0.rmNode flag hc
      have hlast : s0.nx c = u := by
        have := h0.ring.last.1
        have e : lastOf u r = c := by
          unfold lastOf
          have : (u :: r).getLast (by simp) = (p ++ [c]).getLast (by simp) := by
            congr 1
          rw [this]; simp
        rwa [e] at this
      refine ⟨s0.rmNode flag u c, ?_, g1, ?_, fun x hx => by rw [(g2 x hx).1, (g2 x hx).2]; exact hI x hx⟩
      · unfold INA.rmLoop
        rw [if_pos (by rw [f8]; exact hlast)]
      · have hrmd : s0.rmd flag c = s.rmd flag c := by
          unfold INA.rmd; rw [hR.vrOut c hnp, hR.entOut c hnp, hR.szOut c hnp]
        rw [heq]
        refine ⟨by rw [f5, hR.nEq], by rw [f8, hR.nx], by rw [f9, hR.pv], by rw [f6, hR.tl], by rw [f7, hR.hd], ?_, ?_, ?_, ?_, ?_, ?_, ?_, ?_⟩
        · intro x hx
          rw [f1]
          by_cases hxc : x = c
          · rw [hxc, wr_same, hrmd]
          · rw [wr_other _ _ hxc]
            exact hR.entIn x (by simpa [hxc] using hx)
        · intro x hx
          rw [f2]
          by_cases hxc : x = c
          · rw [hxc, wr_same, hrmd]
          · rw [wr_other _ _ hxc]
            exact hR.szIn x (by simpa [hxc] using hx)
        · intro x hx
          rw [f3]
          by_cases hxc : x = c
          · rw [hxc, wr_same, hR.vrOut c hnp]
          · rw [wr_other _ _ hxc]
            exact hR.vrIn x (by simpa [hxc] using hx)
        · intro x hx
          rw [List.mem_append, List.mem_singleton] at hx
          push Not at hx
          rw [f1, wr_other _ _ hx.2]; exact hR.entOut x hx.1
        · intro x hx
          rw [List.mem_append, List.mem_singleton] at hx
          push Not at hx
          rw [f2, wr_other _ _ hx.2]; exact hR.szOut x hx.1
        · intro x hx
          rw [List.mem_append, List.mem_singleton] at hx
          push Not at hx
          rw [f3, wr_other _ _ hx.2]; exact hR.vrOut x hx.1
        · rw [f4, wr_same, hR.dgIn, hR.szOut c hnp, hrmd, List.map_append, List.sum_append]
          have hle : (s.rmd flag c).2 ≤ s.sz c := rmEntries_le _ _ _ _ _ (Nat.zero_le _)
          simp only [List.map_cons, List.map_nil, List.sum_cons, List.sum_nil]
          omega
        · intro x hx
          rw [f4, wr_other _ _ hx]; exact hR.dgOut x hx
  | cons d q ih =>
    intro k c p s0 heq hk h0 hR hI
    match k, hk with
    | k + 1, hk =>
      have hc : c ∈ u :: r := by rw [heq]; simp
      have hnp : c ∉ p := by
        have := h0.nodup
        rw [heq, List.nodup_append] at this
        intro hcp
        exact this.2.2 c hcp c (by simp) rfl
      obtain ⟨f1, f2, f3, f4, f5, f6, f7, f8, f9⟩ := rmNode_fields s0 flag u c
      obtain ⟨g1, g2⟩ := h0.rmNode flag hc
      have hrmd : s0.rmd flag c = s.rmd flag c := by
        unfold INA.rmd; rw [hR.vrOut c hnp, hR.entOut c hnp, hR.szOut c hnp]
      have hnext : s0.nx c = d := by
        have hring := h0.ring
        cases p with
        | nil =>
          simp only [List.nil_append, List.cons.injEq] at heq
          obtain ⟨rfl, rfl⟩ := heq
          exact hring.1
        | cons p0 p =>
          simp only [List.cons_append, List.cons.injEq] at heq
          obtain ⟨rfl, rfl⟩ := heq
          rw [Path.append_iff] at hring
          exact hring.2.1
      have hdu : d ≠ u := by
        rintro rfl
        have := h0.nodup
        rw [heq] at this
        cases p with
        | nil =>
          simp only [List.nil_append, List.cons.injEq] at heq
          rw [List.nil_append, ← heq.1] at this
          exact (List.nodup_cons.1 this).1 (by simp)
        | cons p0 p =>
          simp only [List.cons_append, List.cons.injEq] at heq
          rw [List.cons_append, ← heq.1] at this
          exact (List.nodup_cons.1 this).1 (by simp)
      have heq' : u :: r = (p ++ [c]) ++ d :: q := by rw [heq]; simp
      obtain ⟨s', h1, h2, h3, h4⟩ := ih k d (p ++ [c]) (s0.rmNode flag u c) heq' (by simp at hk; omega) g1 (by
        refine ⟨by rw [f5, hR.nEq], by rw [f8, hR.nx], by rw [f9, hR.pv], by rw [f6, hR.tl], by rw [f7, hR.hd], ?_, ?_, ?_, ?_, ?_, ?_, ?_, ?_⟩
        · intro x hx
          rw [f1]
          by_cases hxc : x = c
          · rw [hxc, wr_same, hrmd]
          · rw [wr_other _ _ hxc]
            exact hR.entIn x (by simpa [hxc] using hx)
        · intro x hx
          rw [f2]
          by_cases hxc : x = c
          · rw [hxc, wr_same, hrmd]
          · rw [wr_other _ _ hxc]
            exact hR.szIn x (by simpa [hxc] using hx)
        · intro x hx
          rw [f3]
          by_cases hxc : x = c
          · rw [hxc, wr_same, hR.vrOut c hnp]
          · rw [wr_other _ _ hxc]
            exact hR.vrIn x (by simpa [hxc] using hx)
        · intro x hx
          rw [List.mem_append, List.mem_singleton] at hx
          push Not at hx
          rw [f1, wr_other _ _ hx.2]; exact hR.entOut x hx.1
        · intro x hx
          rw [List.mem_append, List.mem_singleton] at hx
          push Not at hx
          rw [f2, wr_other _ _ hx.2]; exact hR.szOut x hx.1
        · intro x hx
          rw [List.mem_append, List.mem_singleton] at hx
          push Not at hx
          rw [f3, wr_other _ _ hx.2]; exact hR.vrOut x hx.1
        · rw [f4, wr_same, hR.dgIn, hR.szOut c hnp, hrmd, List.map_append, List.sum_append]
          have hle : (s.rmd flag c).2 ≤ s.sz c := rmEntries_le _ _ _ _ _ (Nat.zero_le _)
          simp only [List.map_cons, List.map_nil, List.sum_cons, List.sum_nil]
          omega
        · intro x hx
          rw [f4, wr_other _ _ hx]; exact hR.dgOut x hx)
        (fun x hx => by rw [(g2 x hx).1, (g2 x hx).2]; exact hI x hx)
      refine ⟨s', ?_, h2, h3, h4⟩
      unfold INA.rmLoop
      rw [f8, hnext, if_neg hdu]
      exact h1

/-- `removeIncidentNets` -/
theorem RingRep.removeNets (h : RingRep s u r) (hn : r.length ≤ s.n) (flag : Nat → Bool) :
    ∃ s', s.removeNets u flag = some s' ∧ RingRep s' u r ∧ Removed s flag u (u :: r) s' ∧
      (∀ x, x ∉ u :: r → s'.inx x = s.inx x ∧ s'.ipv x = s.ipv x) := by
  refine rmLoop_spec h r (s.n + 1) u [] s rfl (by omega) h ?_ (fun _ _ => ⟨rfl, rfl⟩)
  exact ⟨rfl, rfl, rfl, rfl, rfl, by simp, by simp, by simp, fun _ _ => rfl, fun _ _ => rfl, fun _ _ => rfl, by simp, fun _ _ => rfl⟩

end Dyn
end Verif
