import Verif.Lemmas.DetC7
/-!
# Lemmas: a round as a whole
-/
namespace Verif
namespace DetC
open SMap (wr)
variable {α : Type} {c : Cfg α}

open Classical in
/-- weight of the nodes that join `t` -/
noncomputable def joinW (c : Cfg α) (us : List Nat) (p : Nat → Nat) (mv : Nat → Prop) (t : Nat) : Int :=
  (us.map (fun v => if mv v ∧ p v = t then c.nw v else 0)).sum

open Classical in
/-- the effect of a round: `mv` are the nodes that change their cluster -/
structure Rd (c : Cfg α) (us : List Nat) (s s2 s5 : DC) (mv : Nat → Prop) : Prop where
  pr : Props c us s s2
  mvU : ∀ v, mv v → v ∈ us ∧ s2.prop v ≠ v
  cl : ∀ v, mv v → s5.cl v = s2.prop v
  clN : ∀ v, ¬ mv v → s5.cl v = s.cl v
  prop : s5.prop = s2.prop
  fvB : ∀ v, (s5.fv.data v).block = (s.fv.data v).block
  fvE : c.hasFixed = false → s5.fv = s.fv
  cw : ∀ t, s5.cw t = s.cw t + joinW c us s2.prop mv t - (if mv t ∧ s2.opp t ≠ c.nw t then c.nw t else 0)
  opp : ∀ t, s5.opp t = s5.cw t
  cnt : (s5.cnt : Int) = (us.map (fun v => if mv v ∧ s2.opp v = c.nw v then (1 : Int) else 0)).sum
  cap : ∀ v, mv v → s.cw (s2.prop v) + joinW c us s2.prop mv (s2.prop v) ≤ c.maxw
  acc : ∀ x ∈ us, s2.prop x ≠ x → (∃ v, mv v ∧ s2.prop v = s2.prop x) ∧ (0 < c.nw x → 0 < joinW c us s2.prop mv (s2.prop x))

theorem acc_mem {us hv : List Nat} {s s2 s3 : DC} (hM : Mid c us s s2 s3 hv) {v : Nat} (h : Acc c s3 hv v) : v ∈ us ∧ Bad c s2 v := by
  obtain ⟨h1, h2, h3, h4⟩ := hM.mem_grp.1 (List.mem_of_mem_take h)
  refine ⟨h1, ?_⟩
  unfold Bad; rw [h2]; exact ⟨h3, h4⟩

theorem round_rd {us rest hv fx : List Nat} {s s1 s2 s3 s4 s5 : DC} (hn : (us ++ rest).Nodup) (hnn : ∀ v, 0 ≤ c.nw v) (hI : RInv c (us ++ rest) s)
    (hh : Half c us s s1 s2) (h3 : Par.For (next3 c) us .start .fin { s2 with cnt := 0, fix := [], heavy := [] } s3)
    (hp : hv.Perm s3.heavy) (hs : hv.Pairwise (comp c s3.prop)) (h4 : Par.For (next4 c hv) (List.range hv.length) .start .fin s3 s4)
    (hf : fx.Perm s4.fix) (h5 : Par.For (next5 c fx) (List.range fx.length) .start .fin s4 s5) :
    Rd c us s s2 s5 (fun v => v ∈ us ∧ (Ok c s2 v ∨ Acc c s3 hv v)) := by
  classical
  have hu : us.Nodup := (List.nodup_append.1 hn).1
  have hP := half_props hn hnn hI hh
  have hM := mid_of hu hP h3 hp hs
  obtain ⟨a1, a2, a3, a4, a5, a6, a7, a8⟩ := loop4 hM.sortedP hM.nd (by
    intro hf u hu' hb
    obtain ⟨b1, b2, b3⟩ := (hM.mem u).1 hu'
    have := (hP.feas b1 b2).2.2.fixed hf
    rw [hM.fvB] at hb ⊢
    rw [hM.prop] at hb
    exact accept_fixed this hb) (fun t => hM.hlen hu hnn hP) (hM.hopp hu hnn hI hP) h4
  obtain ⟨b1, b2, b3, b4, b5, b6⟩ := loop5 ((hf.nodup_iff).2 (a2 ▸ hM.fixN)) h5
  have hne : ∀ v, Ok c s2 v ∨ Acc c s3 hv v → s2.prop v ≠ v := by
    rintro v (h | h)
    · exact h.1
    · exact (acc_mem hM h).2.1
  have hcl4 : ∀ v, s4.cl v = if v ∈ us ∧ (Ok c s2 v ∨ Acc c s3 hv v) then s2.prop v else s.cl v := by
    intro v
    rw [a5 v, hM.prop, hM.cl v]
    by_cases h1 : Acc c s3 hv v
    · rw [if_pos h1, if_pos ⟨(acc_mem hM h1).1, .inr h1⟩]
    · rw [if_neg h1]; simp [h1]
  -- weight of the nodes that join a cluster
  have hjOk : ∀ t, s2.opp t ≤ c.maxw → joinW c us s2.prop (fun v => v ∈ us ∧ (Ok c s2 v ∨ Acc c s3 hv v)) t = propW c us s2.prop t := by
    intro t ht
    refine sum_congr fun v hv' => ?_
    by_cases e : s2.prop v = t ∧ s2.prop v ≠ v
    · rw [if_pos e, if_pos ⟨⟨hv', .inl ⟨e.2, by rw [e.1]; exact ht⟩⟩, e.1⟩]
    · rw [if_neg e, if_neg]
      rintro ⟨⟨_, h⟩, h'⟩
      exact e ⟨h', hne v h⟩
  have hjBad : ∀ t, c.maxw < s2.opp t → joinW c us s2.prop (fun v => v ∈ us ∧ (Ok c s2 v ∨ Acc c s3 hv v)) t = preW c (grp s3.prop hv t) (nAcc c s3 hv t) := by
    intro t ht
    have hl : ((grp s3.prop hv t).take (nAcc c s3 hv t)).Nodup := (hM.grp_nd t).sublist (List.take_sublist _ _)
    have := sum_mem hu hl (fun v hv' => (hM.mem_grp.1 (List.mem_of_mem_take hv')).1) c.nw
    unfold preW
    rw [← this]
    refine sum_congr fun v hv' => ?_
    by_cases e : v ∈ (grp s3.prop hv t).take (nAcc c s3 hv t)
    · have hg := hM.mem_grp.1 (List.mem_of_mem_take e)
      have hA : Acc c s3 hv v := by unfold Acc; rw [hM.prop] at e ⊢; rw [hg.2.1]; exact e
      rw [if_pos e, if_pos ⟨⟨hv', .inr hA⟩, hg.2.1⟩]
    · rw [if_neg e, if_neg]
      rintro ⟨⟨_, h | h⟩, h'⟩
      · have := h.2; rw [h'] at this; omega
      · unfold Acc at h; rw [hM.prop, h'] at h; rw [hM.prop] at e; exact e h
  have hempty : ∀ t, (∀ x ∈ us, s2.prop x = t → s2.prop x = x) → propW c us s2.prop t = 0 := fun t h => sum_zero fun x hx => by
    rw [if_neg]; rintro ⟨h1, h2⟩; exact h2 (h x hx h1)
  have hgrp : ∀ t, c.maxw < s2.opp t → ∀ x ∈ us, s2.prop x = t → s2.prop x ≠ x → grp s3.prop hv t ≠ [] := fun t ht x hx h1 h2 =>
    List.ne_nil_of_mem (hM.mem_grp.2 ⟨hx, h1, h1 ▸ h2, ht⟩)
  have hW : ∀ t, s4.cw t = s.cw t + joinW c us s2.prop (fun v => v ∈ us ∧ (Ok c s2 v ∨ Acc c s3 hv v)) t ∧ s4.opp t = s4.cw t := by
    intro t
    by_cases ht : s2.opp t ≤ c.maxw
    · have hg : grp s3.prop hv t = [] := List.eq_nil_iff_forall_not_mem.2 fun v hv' => by have := (hM.mem_grp.1 hv').2.2.2; omega
      obtain ⟨d1, d2⟩ := a7 t hg
      rw [d1, d2, hM.opp, hjOk t ht]
      by_cases hex : ∃ u ∈ us, Ok c s2 u ∧ s2.prop u = t
      · rw [hM.cwOk t hex, hP.opp t]; simp
      · rw [hM.cwN t hex, hP.opp t, hempty t]
        · simp
        · intro x hx e
          by_contra hne'
          exact hex ⟨x, hx, ⟨hne', by rw [e]; exact ht⟩, e⟩
    · by_cases hg : grp s3.prop hv t = []
      · obtain ⟨d1, d2⟩ := a7 t hg
        rw [d1, d2, hM.opp, hjBad t (by omega), hM.cwN t (by rintro ⟨u, _, h, e⟩; have := h.2; rw [e] at this; omega), hP.opp t, hempty t]
        · simp [hg, preW]
        · intro x hx e
          by_contra hne'
          exact hgrp t (by omega) x hx e hne' hg
      · obtain ⟨d1, d2⟩ := a6 t hg
        rw [d1, d2, hjBad t (by omega)]
        refine ⟨?_, rfl⟩
        unfold wAcc; rw [(hM.heavy hu hnn hP hg).2.1]
  have hfx : ∀ v, (v ∈ fx ∧ s4.cl v ≠ v) ↔ ((v ∈ us ∧ (Ok c s2 v ∨ Acc c s3 hv v)) ∧ s2.opp v ≠ c.nw v) := by
    intro v
    rw [hf.mem_iff, a2, hM.fix v, hcl4 v]
    constructor
    · rintro ⟨⟨h1, h2, h3⟩, h4⟩
      split at h4
      · next h => exact ⟨h, h3⟩
      · exact absurd (hI.cl v (List.mem_append_left _ h1)) h4
    · rintro ⟨h1, h2⟩
      rw [if_pos h1]
      exact ⟨⟨h1.1, hne v h1.2, h2⟩, hne v h1.2⟩
  refine ⟨hP, fun v hv' => ⟨hv'.1, hne v hv'.2⟩, fun v hv' => ?_, fun v hv' => ?_, by rw [b2, a1, hM.prop], fun v => by rw [b3, a3, hM.fvB], fun h => by rw [b3, a4 h, hM.fvE h], fun t => ?_, fun t => ?_, ?_, fun v hv' => ?_, fun x hx hxne => ?_⟩
  · rw [b1, hcl4 v, if_pos hv']
  · rw [b1, hcl4 v, if_neg hv']
  · rw [b5 t, (hW t).1]
    by_cases h : t ∈ fx ∧ s4.cl t ≠ t
    · rw [if_pos h, if_pos ((hfx t).1 h)]
    · rw [if_neg h, if_neg (fun h' => h ((hfx t).2 h'))]; omega
  · rw [b5 t, b6 t, (hW t).2]
  · rw [b4, a8, hM.cnt, cntAcc_eq hM.sortedP hM.nd, hM.opp]
    have e1 := sum_mem hu hM.nd (fun v hv' => ((hM.mem v).1 hv').1) (fun v => if Acc c s3 hv v ∧ s2.opp v = c.nw v then (1 : Int) else 0)
    rw [← e1]
    have hadd : ∀ (l : List Nat) (f g : Nat → Int), (l.map f).sum + (l.map g).sum = (l.map (fun v => f v + g v)).sum := by
      intro l f g
      induction l with
      | nil => rfl
      | cons a l ih => simp only [List.map_cons, List.sum_cons]; omega
    rw [hadd]
    refine sum_congr fun v hv' => ?_
    by_cases ho : s2.opp v = c.nw v
    · by_cases h1 : Ok c s2 v
      · have h2 : ¬ Acc c s3 hv v := fun h => by have := (acc_mem hM h).2.2; have := h1.2; omega
        simp [ho, h1, h2, hv']
      · by_cases h2 : Acc c s3 hv v
        · have : v ∈ hv := (hM.mem v).2 (acc_mem hM h2)
          simp [ho, h1, h2, hv', this]
        · simp [h1, h2]
    · simp [ho]
  · by_cases ht : s2.opp (s2.prop v) ≤ c.maxw
    · rw [hjOk _ ht, ← hP.opp]; exact ht
    · have hg := hgrp (s2.prop v) (by omega) v hv'.1 rfl (hne v hv'.2)
      have := (hM.preW_pos hu hnn hP hg).2
      rw [hjBad _ (by omega)]
      unfold wAcc at this; rw [(hM.heavy hu hnn hP hg).2.1] at this; exact this
  · by_cases ht : s2.opp (s2.prop x) ≤ c.maxw
    · refine ⟨⟨x, ⟨hx, .inl ⟨hxne, ht⟩⟩, rfl⟩, fun h0 => ?_⟩
      rw [hjOk _ ht]
      have := le_sum (us := us) (f := fun v => if s2.prop v = s2.prop x ∧ s2.prop v ≠ v then c.nw v else 0) (fun v _ => by have := hnn v; split <;> omega) hx
      rw [if_pos ⟨rfl, hxne⟩] at this
      unfold propW; omega
    · have hg := hgrp (s2.prop x) (by omega) x hx rfl hxne
      obtain ⟨d1, d2, d3, d4, d5⟩ := hM.heavy hu hnn hP hg
      refine ⟨?_, fun h0 => ?_⟩
      · have hpos : 0 < nAcc c s3 hv (s2.prop x) := by
          unfold nAcc; rw [d2]; exact accN_first _ _ hg fun y hy => (d5 y hy).2
        obtain ⟨y, l, hyl⟩ : ∃ y l, grp s3.prop hv (s2.prop x) = y :: l := List.exists_cons_of_ne_nil hg
        have hy : y ∈ (grp s3.prop hv (s2.prop x)).take (nAcc c s3 hv (s2.prop x)) := by
          rw [hyl]
          obtain ⟨k, hk⟩ : ∃ k, nAcc c s3 hv (s2.prop x) = k + 1 := ⟨nAcc c s3 hv (s2.prop x) - 1, by omega⟩
          rw [hk, List.take_succ_cons]; exact List.mem_cons_self
        have hg' := hM.mem_grp.1 (List.mem_of_mem_take hy)
        have hA : Acc c s3 hv y := by unfold Acc; rw [hM.prop] at hy ⊢; rw [hg'.2.1]; exact hy
        exact ⟨y, ⟨hg'.1, .inr hA⟩, hg'.2.1⟩
      · rw [hjBad _ (by omega)]
        have := (hM.preW_pos hu hnn hP hg).1
        unfold wAcc at this; rw [d2] at this; omega

theorem Round.rd {us rest : List Nat} {s s' : DC} (hn : (us ++ rest).Nodup) (hnn : ∀ v, 0 ≤ c.nw v) (hI : RInv c (us ++ rest) s)
    (h : Round c us s s') : ∃ s2 mv, Rd c us s s2 s' mv := by
  cases h with
  | mk s1 s2 s3 s4 s5 hv fx h1 h2 h3 hp hs h4 hf h5 => exact ⟨s2, _, round_rd hn hnn hI ⟨h1, h2⟩ h3 hp hs h4 hf h5⟩

theorem joinW_nonneg {us : List Nat} {p : Nat → Nat} {mv : Nat → Prop} (hnn : ∀ v, 0 ≤ c.nw v) (t : Nat) : 0 ≤ joinW c us p mv t :=
  sum_nonneg' fun v _ => by have := hnn v; split <;> omega

theorem Rd.rinv {us rest : List Nat} {s s2 s' : DC} {mv : Nat → Prop} (hn : (us ++ rest).Nodup) (hnn : ∀ v, 0 ≤ c.nw v) (hI : RInv c (us ++ rest) s)
    (h : Rd c us s s2 s' mv) : RInv c rest s' := by
  have hdis : ∀ u, u ∈ rest → u ∉ us := fun u h1 h2 => (List.nodup_append.1 hn).2.2 u h2 u h1 rfl
  have hmv : ∀ u, u ∈ rest → ¬ mv u := fun u hu hm => hdis u hu (h.mvU u hm).1
  have hcw : ∀ u ∈ rest, s'.cw u = s.cw u + joinW c us s2.prop mv u := by
    intro u hu
    rw [h.cw u, if_neg (fun hm => hmv u hu hm.1)]; omega
  refine ⟨h.opp, fun u hu => ?_, fun u hu => ?_, fun u hu => ?_, fun v hv hu hpos => ?_⟩
  · rw [h.clN u (hmv u hu)]; exact hI.cl u (List.mem_append_right _ hu)
  · rw [h.prop]
    rcases h.pr.propO u (hdis u hu) with e | e
    · rw [e]; exact hI.prop u (List.mem_append_right _ hu)
    · exact e
  · rw [hcw u hu]
    have := hI.cw u (List.mem_append_right _ hu)
    have := joinW_nonneg (c := c) (us := us) (p := s2.prop) (mv := mv) hnn u
    omega
  · rw [h.prop] at hu ⊢
    have hle := hI.cw _ (List.mem_append_right us hu)
    have hj := joinW_nonneg (c := c) (us := us) (p := s2.prop) (mv := mv) hnn (s2.prop v)
    rw [hcw _ hu]
    have hvne : s2.prop v ≠ v := fun e => hv (e ▸ hu)
    by_cases hvu : v ∈ us
    · have := (h.acc v hvu hvne).2 hpos
      omega
    · rcases h.pr.propO v hvu with e | e
      · have := hI.stale v (by simp [hvu, hv]) (by rw [← e]; exact List.mem_append_right _ hu) hpos
        rw [← e] at this; omega
      · exact absurd e hvne

end DetC
end Verif
