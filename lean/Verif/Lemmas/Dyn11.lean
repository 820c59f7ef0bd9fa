import Verif.Lemmas.Dyn10
/-!
# Invariant of the incident net lists: restoring nets
-/
namespace Verif
namespace Dyn
open SMap (wr)

variable {n : Nat} {L : Nat → Prop} {mg mid : Nat → Bool} {par : Nat → Nat} {kids sg : Nat → List Nat} {ver : Nat → Nat}
  {keep keep' : Op → Nat → Bool} {v0 : Nat → Int} {base : Nat → List Nat} {ops : Nat → List Op} {V : Nat} {s : INA}

theorem sum_add_map (l : List Nat) (f g : Nat → Int) : (l.map f).sum + (l.map g).sum = (l.map (fun x => f x + g x)).sum := by
  induction l with
  | nil => rfl
  | cons a l ih => simp only [List.map_cons, List.sum_cons]; omega

/-- the second part of `uncontract` -/
theorem INAOK.restore (h : INAOK n L mg mid par kids sg ver keep v0 base ops V s) (t : Tree n mg par kids sg) {v : Nat} (hd : mid v = true) :
    ∃ s', s.restoreNets v = some (s', (sg v).flatMap s.calls) ∧
      INAOK n L mg (wr mid v false) par kids sg ver keep v0 base (fun x => if x ∈ sg v then (ops x).tail else ops x) V s' ∧
      (∀ x, x ∉ sg v → s'.active x = s.active x) := by
  obtain ⟨hmv, hv⟩ := h.mm v hd
  have hvn := h.lv v hv
  have hlen : ((kids v).flatMap sg).length ≤ s.n := by
    have := t.length_le hvn
    rw [h.nEq]; omega
  obtain ⟨s', g1, g2, g3, g4⟩ := (h.part v hd).restoreNets hlen
  rw [← t.seg v] at g1 g3 g4
  have htop : ∀ x ∈ sg v, ∃ R, ops x = Op.contr v :: R := by
    refine h.top_down t (fun w _ R => vl_ne_contr) ?_
    rw [h.top v hv hmv, hd, if_pos rfl]; exact ⟨_, rfl⟩
  have htl : ∀ x ∈ sg v, ops x = Op.contr v :: (ops x).tail := by
    intro x hx
    obtain ⟨R, hR⟩ := htop x hx
    rw [hR]; rfl
  have hdis : ∀ g, g < n → mg g = false → g ≠ v → ∀ x ∈ sg g, x ∉ sg v := by
    intro g hg hm hgv x hx hx'
    exact hgv (t.dis g hg v hvn hm hmv x hx hx')
  have hpar_in : ∀ w, mg w = true → (w ∈ sg v ↔ par w ∈ sg v) := by
    intro w hw
    constructor
    · intro hwin
      exact t.head_of hvn hmv (t.lt w hw).2 (t.par_mem hw) hwin
    · intro hpin; exact t.sub hpin (t.par_mem hw)
  have hArr : ∀ x ∈ sg v, Arr keep (v0 x) (base x) (s'.ent x) (ops x).tail (s'.sz x) := by
    intro x hx
    have hlx := h.mem_live t hv hx
    have h1 := h.arr x hlx
    rw [htl x hx] at h1
    have h2 := h1.restore (c := s.vr x - 1) (by rw [h.vr x hlx, htl x hx, List.length_cons]; push_cast; simp; omega)
    rw [g3.ent, g3.szIn x hx]
    exact h2.1
  refine ⟨s', g1, ⟨?_, h.lv, h.lm, ?_, ?_, ?_, ?_, ?_, ?_, ?_, ?_, ?_, ?_, ?_, ?_⟩, ?_⟩
  · rw [g3.nEq, h.nEq]
  · intro w hw
    by_cases hwv : w = v
    · subst hwv; rw [wr_same] at hw; cases hw
    · rw [wr_other _ _ hwv] at hw; exact h.mm w hw
  · intro g hg hm hdg
    by_cases hgv : g = v
    · subst hgv; exact g2
    · rw [wr_other _ _ hgv] at hdg
      refine (h.ring g hg hm hdg).frame ?_ ?_
      · intro x hx
        rw [← t.seg g] at hx
        have := g4 x (hdis g (h.lv g hg) hm hgv x hx)
        rw [g3.nx, g3.pv, g3.hd]
        exact ⟨rfl, rfl, this.1, this.2, rfl⟩
      · intro x hx
        refine g3.szOut x (hdis g (h.lv g hg) hm hgv x ?_)
        rw [t.seg g]; exact List.mem_cons_of_mem _ hx
  · intro g hdg
    have hgv : g ≠ v := by rintro rfl; rw [wr_same] at hdg; cases hdg
    rw [wr_other _ _ hgv] at hdg
    obtain ⟨hm, hg⟩ := h.mm g hdg
    refine (h.part g hdg).frame ?_ ?_
    · intro x hx
      rw [← t.seg g] at hx
      have := g4 x (hdis g (h.lv g hg) hm hgv x hx)
      rw [g3.nx, g3.pv, g3.hd]
      exact ⟨rfl, rfl, this.1, this.2, rfl⟩
    · intro x hx
      refine g3.szOut x (hdis g (h.lv g hg) hm hgv x ?_)
      rw [t.seg g]; exact List.mem_cons_of_mem _ hx
  · intro w hw
    rw [g3.tl]; exact h.tl w hw
  · intro x hx
    by_cases hxv : x ∈ sg v
    · rw [if_pos hxv]; exact hArr x hxv
    · rw [if_neg hxv, g3.ent, g3.szOut x hxv]; exact h.arr x hx
  · intro x hx
    by_cases hxv : x ∈ sg v
    · rw [if_pos hxv, g3.vrIn x hxv, h.vr x hx]
      conv_lhs => rw [htl x hxv]
      rw [List.length_cons]; push_cast; omega
    · rw [if_neg hxv, g3.vrOut x hxv]; exact h.vr x hx
  · intro g hg hm
    by_cases hgv : g = v
    · subst hgv
      rw [g3.dgIn, h.dg g hg hm, sum_add_map]
      congr 1
      refine List.map_congr_left ?_
      intro x hx
      rw [g3.szIn x hx]; push_cast; rfl
    · rw [g3.dgOut g hgv, h.dg g hg hm]
      congr 1
      refine List.map_congr_left ?_
      intro x hx
      rw [g3.szOut x (hdis g (h.lv g hg) hm hgv x hx)]
  · intro g hg hm
    by_cases hgv : g = v
    · subst hgv
      rw [if_pos (t.self g), wr_same]
      have := h.top g hg hm
      rw [hd, if_pos rfl] at this
      rw [this]; simp
    · rw [if_neg (hdis g (h.lv g hg) hm hgv g (t.self g)), wr_other _ _ hgv]
      exact h.top g hg hm
  · intro w hw
    obtain ⟨k1, T, k2, k3, k4⟩ := h.stk w hw
    have hwv : w ≠ v := by rintro rfl; rw [hmv] at hw; cases hw
    rw [g3.dgOut w hwv]
    refine ⟨k1, ?_⟩
    by_cases hin : w ∈ sg v
    · have hpin := (hpar_in w hw).1 hin
      have h1 := htl (par w) hpin
      cases T with
      | nil =>
        rw [k2, List.nil_append] at h1
        exact absurd h1 vl_ne_contr
      | cons o T =>
        refine ⟨T, ?_, ?_, ?_⟩
        · rw [if_pos hpin, k2]; rfl
        · rw [if_pos hin, k3]; rfl
        · rw [k4]
          congr 1
          refine List.map_congr_left ?_
          intro y hy
          have hyv := t.sub hin hy
          rw [if_pos hyv]
          rw [htl y hyv, List.length_cons, List.drop_succ_cons, List.tail_cons]
    · have hpin : par w ∉ sg v := fun hh => hin ((hpar_in w hw).2 hh)
      refine ⟨T, ?_, ?_, ?_⟩
      · rw [if_neg hpin, k2]
      · rw [if_neg hin, k3]
      · rw [k4]
        congr 1
        refine List.map_congr_left ?_
        intro y hy
        have hyv : y ∉ sg v := fun hh => hin (t.head_of hvn hmv (t.lt w hw).1 hy hh)
        rw [if_neg hyv]
  · intro x hx z
    have hold := h.mem x hx z
    have hnd := h.ond x hx
    by_cases hzv : z = v
    · subst hzv
      rw [wr_same]
      by_cases hxv : x ∈ sg z
      · rw [if_pos hxv]
        rw [htl x hxv, List.nodup_cons] at hnd
        simp [hmv, hnd.1]
      · rw [if_neg hxv, hold]
        simp [hxv]
    · rw [wr_other _ _ hzv, ← hold]
      by_cases hxv : x ∈ sg v
      · rw [if_pos hxv]
        conv_rhs => rw [htl x hxv]
        rw [List.mem_cons]
        constructor
        · exact Or.inr
        · rintro (hh | hh)
          · injection hh with hh; exact absurd hh hzv
          · exact hh
      · rw [if_neg hxv]
  · intro x hx k
    rw [← h.vers x hx k]
    by_cases hxv : x ∈ sg v
    · rw [if_pos hxv]
      conv_rhs => rw [htl x hxv]
      rw [List.mem_cons]
      constructor
      · exact Or.inr
      · rintro (hh | hh)
        · cases hh
        · exact hh
    · rw [if_neg hxv]
  · intro x hx
    by_cases hxv : x ∈ sg v
    · rw [if_pos hxv]
      have := h.ond x hx
      rw [htl x hxv, List.nodup_cons] at this
      exact this.2
    · rw [if_neg hxv]; exact h.ond x hx
  · intro x hx
    unfold INA.active
    rw [g3.ent, g3.szOut x hx]

/-! ### Restoring removed nets -/

/-- the result of restoring the lists of several nodes -/
structure RestoredAll (s : INA) (sg : Nat → List Nat) (ord : List Nat) (s' : INA) : Prop where
  nEq : s'.n = s.n
  tl : s'.tl = s.tl
  ent : s'.ent = s.ent
  szIn : ∀ x ∈ ord.flatMap sg, s'.sz x = s.sz x + (s.again x).length
  vrIn : ∀ x ∈ ord.flatMap sg, s'.vr x = s.vr x - 1
  szOut : ∀ x, x ∉ ord.flatMap sg → s'.sz x = s.sz x
  vrOut : ∀ x, x ∉ ord.flatMap sg → s'.vr x = s.vr x
  dgIn : ∀ h ∈ ord, s'.dg h = s.dg h + (((sg h).map (fun x => ((s.again x).length : Int))).sum)
  dgOut : ∀ x, x ∉ ord → s'.dg x = s.dg x

theorem restoreAll_spec (t : Tree n mg par kids sg) {H : Nat → Prop} (hH : ∀ g, H g → g < n ∧ mg g = false) :
    ∀ (ord : List Nat) (s : INA), s.n = n → ord.Nodup → (∀ h ∈ ord, H h) → (∀ g, H g → RingRep s g ((kids g).flatMap sg)) →
    ∃ s', INA.restoreAll ord s = some s' ∧ RestoredAll s sg ord s' ∧ ∀ g, H g → RingRep s' g ((kids g).flatMap sg) := by
  intro ord
  induction ord with
  | nil =>
    intro s _ _ _ hr
    exact ⟨s, rfl, ⟨rfl, rfl, rfl, by simp, by simp, fun _ _ => rfl, fun _ _ => rfl, by simp, fun _ _ => rfl⟩, hr⟩
  | cons h ord ih =>
    intro s hn hnd hord hr
    rw [List.nodup_cons] at hnd
    have hh := hH h (hord h (by simp))
    have hlen : ((kids h).flatMap sg).length ≤ s.n := by
      have := t.length_le hh.1
      omega
    obtain ⟨s1, g1, g2, g3, g4⟩ := (hr h (hord h (by simp))).part.restoreNets hlen
    rw [← t.seg h] at g1 g3 g4
    have hdis : ∀ g, H g → g ≠ h → ∀ x ∈ sg g, x ∉ sg h := by
      intro g hg hgh x hx hx'
      exact hgh (t.dis g (hH g hg).1 h hh.1 (hH g hg).2 hh.2 x hx hx')
    have hdis' : ∀ x ∈ ord.flatMap sg, x ∉ sg h := by
      intro x hx
      rw [List.mem_flatMap] at hx
      obtain ⟨g, hg, hx⟩ := hx
      exact hdis g (hord g (List.mem_cons_of_mem _ hg)) (by rintro rfl; exact hnd.1 hg) x hx
    have hr1 : ∀ g, H g → RingRep s1 g ((kids g).flatMap sg) := by
      intro g hg
      by_cases hgh : g = h
      · rw [hgh]; exact g2
      · refine (hr g hg).frame ?_ ?_
        · intro x hx
          rw [← t.seg g] at hx
          have := g4 x (hdis g hg hgh x hx)
          rw [g3.nx, g3.pv, g3.hd]
          exact ⟨rfl, rfl, this.1, this.2, rfl⟩
        · intro x hx
          refine g3.szOut x (hdis g hg hgh x ?_)
          rw [t.seg g]; exact List.mem_cons_of_mem _ hx
    obtain ⟨s2, k1, k2, k3⟩ := ih s1 (by rw [g3.nEq]; exact hn) hnd.2 (fun g hg => hord g (List.mem_cons_of_mem _ hg)) hr1
    have hag : ∀ x, x ∉ sg h → s1.again x = s.again x := by
      intro x hx
      unfold INA.again
      rw [g3.ent, g3.szOut x hx, g3.vrOut x hx]
    refine ⟨s2, ?_, ?_, k3⟩
    · unfold INA.restoreAll
      rw [g1]; exact k1
    · refine ⟨by rw [k2.nEq, g3.nEq], by rw [k2.tl, g3.tl], by rw [k2.ent, g3.ent], ?_, ?_, ?_, ?_, ?_, ?_⟩
      · intro x hx
        by_cases hxo : x ∈ ord.flatMap sg
        · rw [k2.szIn x hxo, hag x (hdis' x hxo), g3.szOut x (hdis' x hxo)]
        · rw [k2.szOut x hxo]
          rw [List.flatMap_cons, List.mem_append] at hx
          exact g3.szIn x (hx.resolve_right hxo)
      · intro x hx
        by_cases hxo : x ∈ ord.flatMap sg
        · rw [k2.vrIn x hxo, g3.vrOut x (hdis' x hxo)]
        · rw [k2.vrOut x hxo]
          rw [List.flatMap_cons, List.mem_append] at hx
          exact g3.vrIn x (hx.resolve_right hxo)
      · intro x hx
        rw [List.flatMap_cons, List.mem_append, not_or] at hx
        rw [k2.szOut x hx.2, g3.szOut x hx.1]
      · intro x hx
        rw [List.flatMap_cons, List.mem_append, not_or] at hx
        rw [k2.vrOut x hx.2, g3.vrOut x hx.1]
      · intro g hg
        rw [List.mem_cons] at hg
        by_cases hgo : g ∈ ord
        · have hgh : g ≠ h := by rintro rfl; exact hnd.1 hgo
          rw [k2.dgIn g hgo, g3.dgOut g hgh]
          congr 2
          refine List.map_congr_left ?_
          intro x hx
          rw [hag x (hdis g (hord g (List.mem_cons_of_mem _ hgo)) hgh x hx)]
        · have := hg.resolve_right hgo
          subst this
          rw [k2.dgOut g hgo, g3.dgIn]
      · intro x hx
        rw [List.mem_cons, not_or] at hx
        rw [k2.dgOut x hx.2, g3.dgOut x hx.1]

theorem vl_eq_ver {k j : Nat} {R : List Op} (h : vl k = Op.ver j :: R) : k = j + 1 := by
  cases k with
  | zero => simp [vl] at h
  | succ k =>
    simp only [vl, List.cons.injEq, Op.ver.injEq] at h
    omega

/-- `restoreSinglePinAndParallelNets` on the incident net lists -/
theorem INAOK.restoreAll (h : INAOK n L mg (fun _ => false) par kids sg ver keep v0 base ops (V + 1) s) (t : Tree n mg par kids sg)
    (hver : ∀ v, mg v = true → ver v ≤ V) {ord : List Nat} (hnd : ord.Nodup) (hord : ∀ x, x ∈ ord ↔ L x ∧ mg x = false) :
    ∃ s', INA.restoreAll ord s = some s' ∧ INAOK n L mg (fun _ => false) par kids sg ver keep v0 base (fun x => (ops x).tail) V s' := by
  obtain ⟨s', h1, hR, hr⟩ := restoreAll_spec t (H := fun x => L x ∧ mg x = false) (fun g hg => ⟨h.lv g hg.1, hg.2⟩) ord s h.nEq hnd
    (fun g hg => (hord g).1 hg) (fun g hg => h.ring g hg.1 hg.2 rfl)
  have hall : ∀ x, L x → x ∈ ord.flatMap sg := by
    intro x hx
    obtain ⟨g, hg, hm, hxg⟩ := t.cover x (h.lv x hx)
    exact List.mem_flatMap.2 ⟨g, (hord g).2 ⟨h.head_live t hx hxg, hm⟩, hxg⟩
  have htl : ∀ x, L x → ops x = Op.ver V :: (ops x).tail := by
    intro x hx
    obtain ⟨g, hg, hm, hxg⟩ := t.cover x (h.lv x hx)
    have := h.top_down t (o := Op.ver V) (fun w hw R hh => by
      have h1 := vl_eq_ver hh
      have h2 := hver w hw
      omega) (y := g) (by rw [h.top g (h.head_live t hx hxg) hm]; exact ⟨_, rfl⟩) x hxg
    obtain ⟨R, hR⟩ := this
    rw [hR]; rfl
  have hArr : ∀ x, L x → Arr keep (v0 x) (base x) (s'.ent x) (ops x).tail (s'.sz x) := by
    intro x hx
    have h1 := h.arr x hx
    rw [htl x hx] at h1
    have h2 := h1.restore (c := s.vr x - 1) (by rw [h.vr x hx, htl x hx, List.length_cons]; push_cast; simp; omega)
    rw [hR.ent, hR.szIn x (hall x hx)]
    exact h2.1
  refine ⟨s', h1, ⟨?_, h.lv, h.lm, by simp, ?_, by simp, ?_, hArr, ?_, ?_, ?_, ?_, ?_, ?_, ?_⟩⟩
  · rw [hR.nEq, h.nEq]
  · intro g hg hm _; exact hr g ⟨hg, hm⟩
  · intro v hv; rw [hR.tl]; exact h.tl v hv
  · intro x hx
    rw [hR.vrIn x (hall x hx), h.vr x hx]
    conv_lhs => rw [htl x hx]
    rw [List.length_cons]; push_cast; omega
  · intro g hg hm
    rw [hR.dgIn g ((hord g).2 ⟨hg, hm⟩), h.dg g hg hm, sum_add_map]
    congr 1
    refine List.map_congr_left ?_
    intro x hx
    rw [hR.szIn x (hall x (h.mem_live t hg hx))]; push_cast; rfl
  · intro g hg hm
    have := h.top g hg hm
    simp only [Bool.false_eq_true, if_false] at this ⊢
    rw [this]; rfl
  · intro v hv
    obtain ⟨k1, T, k2, k3, k4⟩ := h.stk v hv
    have hv' := hver v hv
    refine ⟨hv', ?_⟩
    have h1 := htl (par v) (h.lm v hv).2
    have hvo : v ∉ ord := fun hh => by
      have := ((hord v).1 hh).2
      rw [hv] at this; cases this
    cases T with
    | nil =>
      rw [k2, List.nil_append] at h1
      have := vl_eq_ver h1
      omega
    | cons o T =>
      refine ⟨T, ?_, ?_, ?_⟩
      · rw [k2]; rfl
      · rw [k3]; rfl
      · rw [hR.dgOut v hvo, k4]
        congr 1
        refine List.map_congr_left ?_
        intro y hy
        have := htl y (h.mem_live t (h.lm v hv).1 hy)
        rw [List.length_cons]
        conv_lhs => rw [this]
        rw [List.drop_succ_cons]
  · intro x hx z
    rw [← h.mem x hx z]
    conv_rhs => rw [htl x hx]
    rw [List.mem_cons]
    constructor
    · exact Or.inr
    · rintro (hh | hh)
      · cases hh
      · exact hh
  · intro x hx k
    have h1 := h.vers x hx k
    have h2 := h.ond x hx
    rw [htl x hx] at h1 h2
    rw [List.nodup_cons] at h2
    rw [List.mem_cons, Op.ver.injEq] at h1
    constructor
    · intro hk
      have := h1.1 (Or.inr hk)
      have : k ≠ V := by rintro rfl; exact h2.1 hk
      omega
    · intro hk
      rcases h1.2 (by omega) with hh | hh
      · omega
      · exact hh
  · intro x hx
    have h2 := h.ond x hx
    rw [htl x hx, List.nodup_cons] at h2
    exact h2.2

end Dyn
end Verif
