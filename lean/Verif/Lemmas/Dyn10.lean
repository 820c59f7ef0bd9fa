import Verif.Lemmas.Dyn9
import Verif.Model.DynamicHypergraph
/-!
# Invariant of the incident net lists: removing and restoring nets, splitting
-/
namespace Verif
namespace Dyn
open SMap (wr)

variable {n : Nat} {L : Nat → Prop} {mg mid : Nat → Bool} {par : Nat → Nat} {kids sg : Nat → List Nat} {ver : Nat → Nat}
  {keep keep' : Op → Nat → Bool} {v0 : Nat → Int} {base : Nat → List Nat} {ops : Nat → List Op} {V : Nat} {s : INA}

/-- the result of removing nets from the lists of several nodes -/
structure RemovedAll (s : INA) (flag : Nat → Bool) (sg : Nat → List Nat) (ord : List Nat) (s' : INA) : Prop where
  nEq : s'.n = s.n
  tl : s'.tl = s.tl
  entIn : ∀ x ∈ ord.flatMap sg, s'.ent x = (s.rmd flag x).1
  szIn : ∀ x ∈ ord.flatMap sg, s'.sz x = (s.rmd flag x).2
  vrIn : ∀ x ∈ ord.flatMap sg, s'.vr x = s.vr x + 1
  entOut : ∀ x, x ∉ ord.flatMap sg → s'.ent x = s.ent x
  szOut : ∀ x, x ∉ ord.flatMap sg → s'.sz x = s.sz x
  vrOut : ∀ x, x ∉ ord.flatMap sg → s'.vr x = s.vr x
  dgIn : ∀ h ∈ ord, s'.dg h = s.dg h - (((sg h).map (fun x => (s.sz x : Int) - (s.rmd flag x).2)).sum)
  dgOut : ∀ x, x ∉ ord → s'.dg x = s.dg x

theorem removeAll_spec (t : Tree n mg par kids sg) {flag : Nat → Bool} {H : Nat → Prop} (hH : ∀ g, H g → g < n ∧ mg g = false) :
    ∀ (ord : List Nat) (s : INA), s.n = n → ord.Nodup → (∀ h ∈ ord, H h) → (∀ g, H g → RingRep s g ((kids g).flatMap sg)) →
    ∃ s', INA.removeAll flag ord s = some s' ∧ RemovedAll s flag sg ord s' ∧ ∀ g, H g → RingRep s' g ((kids g).flatMap sg) := by
  intro ord
  induction ord with
  | nil =>
    intro s _ _ _ hr
    exact ⟨s, rfl, ⟨rfl, rfl, by simp, by simp, by simp, fun _ _ => rfl, fun _ _ => rfl, fun _ _ => rfl, by simp, fun _ _ => rfl⟩, hr⟩
  | cons h ord ih =>
    intro s hn hnd hord hr
    rw [List.nodup_cons] at hnd
    have hh := hH h (hord h (by simp))
    have hlen : ((kids h).flatMap sg).length ≤ s.n := by
      have := t.length_le hh.1
      omega
    obtain ⟨s1, g1, g2, g3, g4⟩ := (hr h (hord h (by simp))).removeNets hlen flag
    rw [← t.seg h] at g3 g4
    have hdis : ∀ g, H g → g ≠ h → ∀ x ∈ sg g, x ∉ sg h := by
      intro g hg hgh x hx hx'
      exact hgh (t.dis g (hH g hg).1 h hh.1 (hH g hg).2 hh.2 x hx hx')
    have hdis' : ∀ x ∈ ord.flatMap sg, x ∉ sg h := by
      intro x hx
      rw [List.mem_flatMap] at hx
      obtain ⟨g, hg, hx⟩ := hx
      exact hdis g (hord g (List.mem_cons_of_mem _ hg)) (by rintro rfl; exact hnd.1 hg) x hx
    have hr1 : ∀ g, H g → RingRep s1 g ((kids g).flatMap sg) := by
      intro g hg
      by_cases hgh : g = h
      · rw [hgh]; exact g2
      · refine (hr g hg).frame ?_ ?_
        · intro x hx
          rw [← t.seg g] at hx
          have := g4 x (hdis g hg hgh x hx)
          rw [g3.nx, g3.pv, g3.hd]
          exact ⟨rfl, rfl, this.1, this.2, rfl⟩
        · intro x hx
          refine g3.szOut x (hdis g hg hgh x ?_)
          rw [t.seg g]; exact List.mem_cons_of_mem _ hx
    obtain ⟨s2, k1, k2, k3⟩ := ih s1 (by rw [g3.nEq]; exact hn) hnd.2 (fun g hg => hord g (List.mem_cons_of_mem _ hg)) hr1
    have hrmd : ∀ x, x ∉ sg h → s1.rmd flag x = s.rmd flag x := by
      intro x hx
      unfold INA.rmd
      rw [g3.entOut x hx, g3.szOut x hx, g3.vrOut x hx]
    refine ⟨s2, ?_, ?_, k3⟩
    · unfold INA.removeAll
      rw [g1]; exact k1
    · refine ⟨by rw [k2.nEq, g3.nEq], by rw [k2.tl, g3.tl], ?_, ?_, ?_, ?_, ?_, ?_, ?_, ?_⟩
      · intro x hx
        by_cases hxo : x ∈ ord.flatMap sg
        · rw [k2.entIn x hxo, hrmd x (hdis' x hxo)]
        · rw [k2.entOut x hxo]
          rw [List.flatMap_cons, List.mem_append] at hx
          exact g3.entIn x (hx.resolve_right hxo)
      · intro x hx
        by_cases hxo : x ∈ ord.flatMap sg
        · rw [k2.szIn x hxo, hrmd x (hdis' x hxo)]
        · rw [k2.szOut x hxo]
          rw [List.flatMap_cons, List.mem_append] at hx
          exact g3.szIn x (hx.resolve_right hxo)
      · intro x hx
        by_cases hxo : x ∈ ord.flatMap sg
        · rw [k2.vrIn x hxo, g3.vrOut x (hdis' x hxo)]
        · rw [k2.vrOut x hxo]
          rw [List.flatMap_cons, List.mem_append] at hx
          exact g3.vrIn x (hx.resolve_right hxo)
      · intro x hx
        rw [List.flatMap_cons, List.mem_append, not_or] at hx
        rw [k2.entOut x hx.2, g3.entOut x hx.1]
      · intro x hx
        rw [List.flatMap_cons, List.mem_append, not_or] at hx
        rw [k2.szOut x hx.2, g3.szOut x hx.1]
      · intro x hx
        rw [List.flatMap_cons, List.mem_append, not_or] at hx
        rw [k2.vrOut x hx.2, g3.vrOut x hx.1]
      · intro g hg
        rw [List.mem_cons] at hg
        by_cases hgo : g ∈ ord
        · have hgh : g ≠ h := by rintro rfl; exact hnd.1 hgo
          rw [k2.dgIn g hgo, g3.dgOut g hgh]
          congr 2
          refine List.map_congr_left ?_
          intro x hx
          have := hdis g (hord g (List.mem_cons_of_mem _ hgo)) hgh x hx
          rw [hrmd x this, g3.szOut x this]
        · have := hg.resolve_right hgo
          subst this
          rw [k2.dgOut g hgo, g3.dgIn]
      · intro x hx
        rw [List.mem_cons, not_or] at hx
        rw [k2.dgOut x hx.2, g3.dgOut x hx.1]

theorem INAOK.head_live (h : INAOK n L mg mid par kids sg ver keep v0 base ops V s) (t : Tree n mg par kids sg) {x g : Nat} (hx : L x) (hg : x ∈ sg g) :
    L g := by
  rcases (t.mem_iff g x).1 hg with h1 | ⟨w, h1, h2, _⟩
  · rw [← h1]; exact hx
  · rw [← h2]; exact (h.lm w h1).2

/-- `removeSinglePinAndParallelHyperedges` on the incident net lists -/
theorem INAOK.removeAll (h : INAOK n L mg (fun _ => false) par kids sg ver keep v0 base ops V s) (t : Tree n mg par kids sg) (hf : Fresh L v0 ops s)
    {flag : Nat → Bool} {ord : List Nat} (hnd : ord.Nodup) (hord : ∀ x, x ∈ ord ↔ L x ∧ mg x = false)
    (hfl : ∀ x, L x → ∀ e ∈ s.active x, flag e = !keep (Op.ver V) e) :
    ∃ s', INA.removeAll flag ord s = some s' ∧
      INAOK n L mg (fun _ => false) par kids sg ver keep v0 base (fun x => Op.ver V :: ops x) (V + 1) s' ∧
      Fresh L v0 (fun x => Op.ver V :: ops x) s' := by
  obtain ⟨s', h1, hR, hr⟩ := removeAll_spec t (H := fun x => L x ∧ mg x = false) (flag := flag) (fun g hg => ⟨h.lv g hg.1, hg.2⟩) ord s h.nEq hnd
    (fun g hg => (hord g).1 hg) (fun g hg => h.ring g hg.1 hg.2 rfl)
  have hall : ∀ x, L x → x ∈ ord.flatMap sg := by
    intro x hx
    obtain ⟨g, hg, hm, hxg⟩ := t.cover x (h.lv x hx)
    exact List.mem_flatMap.2 ⟨g, (hord g).2 ⟨h.head_live t hx hxg, hm⟩, hxg⟩
  have hrem : ∀ x, L x → _ := fun x hx => (h.arr x hx).remove (hf x hx) (o := Op.ver V) (nv := s.vr x + 1) (flag := flag)
    (fun e he => hfl x hx e he)
  have hArr : ∀ x, L x → Arr keep (v0 x) (base x) (s'.ent x) (Op.ver V :: ops x) (s'.sz x) := by
    intro x hx
    rw [hR.entIn x (hall x hx), hR.szIn x (hall x hx)]
    exact (hrem x hx).1
  refine ⟨s', h1, ⟨?_, h.lv, h.lm, by simp, ?_, by simp, ?_, hArr, ?_, ?_, ?_, ?_, ?_, ?_, ?_⟩, ?_⟩
  · rw [hR.nEq, h.nEq]
  · intro g hg hm _; exact hr g ⟨hg, hm⟩
  · intro v hv; rw [hR.tl]; exact h.tl v hv
  · intro x hx
    rw [hR.vrIn x (hall x hx), h.vr x hx, List.length_cons]; push_cast; omega
  · intro g hg hm
    rw [hR.dgIn g ((hord g).2 ⟨hg, hm⟩), h.dg g hg hm, sum_sub_map (sg g) (fun y => (s.sz y : Int)) (fun y => ((s.rmd flag y).2 : Int))]
    congr 1
    refine List.map_congr_left ?_
    intro x hx
    rw [hR.szIn x (hall x (h.mem_live t hg hx))]
  · intro g hg hm
    have := h.top g hg hm
    simp only [Bool.false_eq_true, if_false] at this ⊢
    rw [this]; rfl
  · intro v hv
    obtain ⟨k1, T, k2, k3, k4⟩ := h.stk v hv
    refine ⟨by omega, Op.ver V :: T, by rw [k2, List.cons_append], by rw [k3, List.cons_append], ?_⟩
    have hvo : v ∉ ord := fun hh => by
      have := ((hord v).1 hh).2
      rw [hv] at this; cases this
    rw [hR.dgOut v hvo, k4]
    rfl
  · intro x hx z
    rw [← h.mem x hx z, List.mem_cons]
    constructor
    · rintro (hh | hh)
      · cases hh
      · exact hh
    · exact Or.inr
  · intro x hx k
    rw [List.mem_cons, h.vers x hx k, Op.ver.injEq]
    omega
  · intro x hx
    rw [List.nodup_cons]
    refine ⟨fun hh => ?_, h.ond x hx⟩
    have := (h.vers x hx V).1 hh
    omega
  · intro x hx p hp
    rw [hR.entIn x (hall x hx), hR.szIn x (hall x hx)] at hp
    rw [(hrem x hx).2.1 p hp, h.vr x hx, List.length_cons]
    push_cast; omega

/-! ### Splitting -/

theorem vl_ne_contr {k z : Nat} {R : List Op} : vl k ≠ Op.contr z :: R := by
  cases k with
  | zero => simp [vl]
  | succ k => simp [vl]

/-- the last removal is the same in the whole subtree -/
theorem INAOK.top_down (h : INAOK n L mg mid par kids sg ver keep v0 base ops V s) (t : Tree n mg par kids sg) {o : Op}
    (ho : ∀ w, mg w = true → ∀ R, vl (ver w) ≠ o :: R) {y : Nat} (hy : ∃ R, ops y = o :: R) : ∀ x ∈ sg y, ∃ R, ops x = o :: R := by
  revert hy
  refine t.induct (P := fun y => (∃ R, ops y = o :: R) → ∀ x ∈ sg y, ∃ R, ops x = o :: R) ?_ y
  intro y ih hy x hx
  rcases (t.mem_iff y x).1 hx with rfl | ⟨w, h1, h2, h3⟩
  · exact hy
  · refine ih w ((t.kid w y).2 ⟨h1, h2⟩) ?_ x h3
    obtain ⟨R, hR⟩ := hy
    obtain ⟨_, T, k2, k3, _⟩ := h.stk w h1
    rw [h2, hR] at k2
    cases T with
    | nil => exact absurd k2.symm (ho w h1 R)
    | cons o' T =>
      rw [List.cons_append] at k2
      injection k2 with k2 _
      exact ⟨_, by rw [k3, ← k2]; rfl⟩

/-- the first part of `uncontract` -/
theorem INAOK.cut (h : INAOK n L mg mid par kids sg ver keep v0 base ops V s) (t : Tree n mg par kids sg) {u v : Nat} (hmu : mg u = false)
    (hdu : mid u = false) (hmv : mg v = true) (hp : par v = u) (hver : ver v = V) {a b : List Nat} (hk : kids u = a ++ v :: b) :
    ∃ s', s.cut u v = some s' ∧
      INAOK n L (wr mg v false) (wr mid v true) par (wr kids u (a ++ b)) (wr sg u (u :: (a ++ b).flatMap sg)) ver keep v0 base ops V s' ∧
      s'.ent = s.ent ∧ s'.sz = s.sz ∧ s'.vr = s.vr := by
  have hu : L u := by rw [← hp]; exact (h.lm v hmv).2
  have hv : L v := (h.lm v hmv).1
  have huv : u ≠ v := by rintro rfl; rw [hmu] at hmv; cases hmv
  have hun := h.lv u hu
  obtain ⟨t', hsu⟩ := t.unmerge hun hmu hmv hp hk
  have hr := h.ring u hu hmu hdu
  have hseg : (kids u).flatMap sg = a.flatMap sg ++ (v :: (kids v).flatMap sg) ++ b.flatMap sg := by
    rw [hk, ← t.seg v]; simp
  have hlen : (a.flatMap sg ++ (v :: (kids v).flatMap sg) ++ b.flatMap sg).length ≤ s.n := by
    have := t.length_le hun
    rw [← hseg, h.nEq]; omega
  rw [hseg] at hr
  obtain ⟨s1, g1, g2, g3, g4, g5, g6, g7, g8, g9, g10, g11⟩ := hr.splice (h.tl v hmv) hlen
  obtain ⟨kv, T, kT1, kT2, kT3⟩ := h.stk v hmv
  have hTn : T = [] := by
    have := h.top u hu hmu
    rw [hdu] at this
    simp only [Bool.false_eq_true, if_false] at this
    rw [hp, this, hver] at kT1
    have := congrArg List.length kT1
    rw [List.length_append] at this
    exact List.eq_nil_of_length_eq_zero (by omega)
  subst hTn
  simp only [List.nil_append, List.length_nil, List.drop_zero] at kT1 kT2 kT3
  have hdgv : s.dg v = ((sg v).map (fun y => (s.sz y : Int))).sum := by
    rw [kT3]
    congr 1
    refine List.map_congr_left ?_
    intro y hy
    rw [(h.arr y (h.mem_live t hv hy)).sz_eq]
  have hdg' : ∀ g, ({ s1 with dg := wr s1.dg u (s1.dg u - s1.dg v) } : INA).dg g = if g = u then s.dg u - s.dg v else s.dg g := by
    intro g
    show wr s1.dg u (s1.dg u - s1.dg v) g = _
    by_cases hg : g = u
    · subst hg; rw [wr_same, if_pos rfl, g7]
    · rw [wr_other _ _ hg, if_neg hg, g7]
  have hout : ∀ g, g < n → mg g = false → g ≠ u → ∀ x ∈ sg g, x ∉ u :: (a.flatMap sg ++ (v :: (kids v).flatMap sg) ++ b.flatMap sg) := by
    intro g hg hm hgu x hx hx'
    rw [← hseg, ← t.seg u] at hx'
    exact hgu (t.dis g hg u hun hm hmu x hx hx')
  have hvsg : v ∈ sg u := by rw [← hp]; exact t.par_mem hmv
  have hframe : ∀ g, g < n → mg g = false → g ≠ u → ∀ x ∈ sg g, s1.nx x = s.nx x ∧ s1.pv x = s.pv x ∧ s1.inx x = s.inx x ∧ s1.ipv x = s.ipv x ∧
      s1.hd x = s.hd x := by
    intro g hg hm hgu x hx
    have hxo := hout g hg hm hgu x hx
    have := g11 x hxo
    refine ⟨this.1, this.2.1, this.2.2.1, this.2.2.2, ?_⟩
    rw [g10, wr_other]
    rintro rfl
    exact hgu (t.dis g hg u hun hm hmu x hx hvsg)
  have hkid : ∀ g, g ≠ u → (wr kids u (a ++ b) g).flatMap (wr sg u (u :: (a ++ b).flatMap sg)) = (kids g).flatMap sg := by
    intro g hg
    have := rest_eq t t' (x := g) (l := []) (by rw [wr_other _ _ hg]; simp)
    rw [this, List.append_nil]
  have hkidu : (wr kids u (a ++ b) u).flatMap (wr sg u (u :: (a ++ b).flatMap sg)) = a.flatMap sg ++ b.flatMap sg := by
    have := t'.seg u
    rw [wr_same] at this
    have := (List.cons.inj this).2
    rw [← this, List.flatMap_append]
  refine ⟨{ s1 with dg := wr s1.dg u (s1.dg u - s1.dg v) }, ?_, ?_, g4, g5, g6⟩
  · unfold INA.cut; rw [g1]
  refine ⟨?_, h.lv, ?_, ?_, ?_, ?_, ?_, ?_, ?_, ?_, ?_, ?_, ?_, h.vers, h.ond⟩
  · show s1.n = n
    rw [g8, h.nEq]
  · intro w hw
    by_cases hwv : w = v
    · subst hwv; rw [wr_same] at hw; cases hw
    · rw [wr_other _ _ hwv] at hw; exact h.lm w hw
  · intro w hw
    by_cases hwv : w = v
    · subst hwv; exact ⟨wr_same _ _ _, hv⟩
    · rw [wr_other _ _ hwv] at hw ⊢; exact h.mm w hw
  · intro g hg hm hd
    have hgv : g ≠ v := by rintro rfl; rw [wr_same] at hd; cases hd
    rw [wr_other _ _ hgv] at hm hd
    by_cases hgu : g = u
    · subst hgu
      rw [hkidu]
      exact g2.frame (fun x _ => ⟨rfl, rfl, rfl, rfl, rfl⟩) (fun x _ => rfl)
    · rw [hkid g hgu]
      refine (h.ring g hg hm hd).frame ?_ ?_
      · intro x hx
        rw [← t.seg g] at hx
        exact hframe g (h.lv g hg) hm hgu x hx
      · intro x _
        show s1.sz x = _
        rw [g5]
  · intro g hd
    by_cases hgv : g = v
    · subst hgv
      rw [hkid g (Ne.symm huv)]
      exact g3.frame (fun x _ => ⟨rfl, rfl, rfl, rfl, rfl⟩) (fun x _ => rfl)
    · rw [wr_other _ _ hgv] at hd
      have hgu : g ≠ u := by rintro rfl; rw [hdu] at hd; cases hd
      rw [hkid g hgu]
      refine (h.part g hd).frame ?_ ?_
      · intro x hx
        rw [← t.seg g] at hx
        exact hframe g (h.lv g (h.mm g hd).2) (h.mm g hd).1 hgu x hx
      · intro x _
        show s1.sz x = _
        rw [g5]
  · intro w hw
    have hwv : w ≠ v := by rintro rfl; rw [wr_same] at hw; cases hw
    rw [wr_other _ _ hwv] at hw
    have hwu : w ≠ u := by rintro rfl; rw [hmu] at hw; cases hw
    show s1.tl w = _
    rw [g9, hkid w hwu]
    exact h.tl w hw
  · intro x hx
    show Arr keep (v0 x) (base x) (s1.ent x) (ops x) (s1.sz x)
    rw [g4, g5]; exact h.arr x hx
  · intro x hx
    show s1.vr x = _
    rw [g6]; exact h.vr x hx
  · intro g hg hm
    rw [hdg' g]
    show _ = ((wr sg u (u :: (a ++ b).flatMap sg) g).map (fun y => (s1.sz y : Int))).sum
    rw [g5]
    by_cases hgu : g = u
    · subst hgu
      rw [if_pos rfl, wr_same, h.dg g hg hmu, hdgv, hsu]
      simp only [List.map_cons, List.sum_cons, List.map_append, List.sum_append, List.flatMap_append]
      omega
    · rw [if_neg hgu, wr_other _ _ hgu]
      by_cases hgv : g = v
      · subst hgv; exact hdgv
      · rw [wr_other _ _ hgv] at hm; exact h.dg g hg hm
  · intro g hg hm
    by_cases hgv : g = v
    · subst hgv
      rw [wr_same, if_pos rfl, kT2, hver]
    · rw [wr_other _ _ hgv] at hm ⊢; exact h.top g hg hm
  · intro w hw
    have hwv : w ≠ v := by rintro rfl; rw [wr_same] at hw; cases hw
    rw [wr_other _ _ hwv] at hw
    have hwu : w ≠ u := by rintro rfl; rw [hmu] at hw; cases hw
    rw [hdg' w, if_neg hwu, wr_other _ _ hwu]
    exact h.stk w hw
  · intro x hx z
    rw [h.mem x hx z]
    by_cases hzv : z = v
    · subst hzv
      rw [wr_same, wr_same, wr_other _ _ (Ne.symm huv)]
      simp [hmv]
    · rw [wr_other _ _ hzv, wr_other _ _ hzv]
      by_cases hzu : z = u
      · subst hzu; simp [hmu, hdu]
      · rw [wr_other _ _ hzu]

end Dyn
end Verif
