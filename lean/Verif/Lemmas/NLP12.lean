import Verif.Lemmas.NLP11
/-!
# The invariant of the n-level uncoarsening with a partition
-/
namespace Verif
namespace Dyn
open SMap (wr)

/-! ### Objective functions -/

/-- contribution of a net -/
def netTerm (o : Metrics.Obj) (S : Finset Nat) : Int :=
  if S.card ≤ 1 then 0 else match o with
    | .km1 => (S.card : Int) - 1
    | .cut => 1
    | .soed => S.card

theorem netTerm_one (o : Metrics.Obj) (S : Finset Nat) (h : S.card ≤ 1) : netTerm o S = 0 := by
  unfold netTerm; rw [if_pos h]

theorem objective_netSum {h : DH} {Φ : Assign} {ρ : Nat → Nat} (o : Metrics.Obj) (hne : ∀ e, e < h.m → h.een e = true → h.edgePins e ≠ [])
    (hΦ : ∀ e, e < h.m → h.een e = true → ∀ x ∈ h.edgePins e, Φ x = some (ρ x)) : h.hg.objective Φ o = netSum h ρ (netTerm o) := by
  classical
  have hobj : h.hg.objective Φ o = (h.hg.edges.map (fun e => h.hg.term Φ e o)).sum := by cases o <;> rfl
  rw [hobj]
  show (((List.range h.m).filter h.een).map _).sum = _
  rw [sum_filter_range]
  unfold netSum
  rw [Finset.sum_filter]
  refine Finset.sum_congr rfl (fun e he => ?_)
  have he' := Finset.mem_range.1 he
  by_cases hen : h.een e = true
  · rw [if_pos hen, if_pos hen]
    have hp : h.hg.pins e = h.edgePins e := by
      show (if _ then _ else _) = _
      rw [if_pos (by simp [he', hen])]
    have hl : h.hg.lam Φ e = ((h.edgePins e).map ρ).toFinset.card := by
      unfold HG.lam HG.blocksOf
      rw [hp]
      congr 2
      rw [← List.filterMap_eq_map]
      exact List.filterMap_congr (fun x hx => hΦ e he' hen x hx)
    have hpos : 0 < ((h.edgePins e).map ρ).toFinset.card := by
      rw [Finset.card_pos]
      cases hq : h.edgePins e with
      | nil => exact absurd hq (hne e he' hen)
      | cons a l => exact ⟨ρ a, by simp⟩
    have hw : h.hg.ew e = h.ew e := rfl
    cases o <;> unfold HG.term netTerm <;> simp only [hl, hw] <;> grind
  · rw [if_neg hen, if_neg hen]

/-! ### Clusters -/

section
variable {s0 : DH} {mxw : Int} {ref : Nat → Nat → Bool} {s1 : St} {mxb : Nat} {L Lr : List (List (List (Nat × Nat)))} {h0 h : DH}

/-- the node that contains `v` -/
theorem Ready.cluster (hR : Ready s0 mxw ref s1 mxb L h0) (h' : UncSteps (L, h0) (Lr, h)) {v : Nat} (hv : s0.live v) :
    h.has (rootOf (mementoPar Lr) v) ∧ ∀ u, InCluster (mementoPar Lr) v u ↔ u = rootOf (mementoPar Lr) v := by
  obtain ⟨G, hS, hT, L1, B, U, rfl, hI⟩ := hR.unc h'
  rw [hI.memento hT]
  have hB := hI.inv
  obtain ⟨i, hi⟩ := hB.rest_acyclic hS v
  have hr := rootOf_eq (v := v) (i := i) hi rfl
  have hl : s0.live ((restPar s1.h.par U.mg)^[i] v) := live_rest hS U.mg (fun w hw => hB.core.tree.par_ne hw) hv i
  rw [hr]
  refine ⟨⟨by rw [hB.core.nEq]; exact hl.1, (hB.en hS _ hl.1).2 ⟨hl.2, hi⟩⟩, fun u => ⟨?_, ?_⟩⟩
  · rintro ⟨h1, j, h2⟩
    rw [← hr]; exact (rootOf_eq h1 h2).symm
  · rintro rfl
    exact ⟨hi, i, rfl⟩

theorem Ready.root_par (hR : Ready s0 mxw ref s1 mxb L h0) (h' : UncSteps (L, h0) (Lr, h)) (v : Nat) :
    rootOf (mementoPar Lr) (mementoPar Lr v) = rootOf (mementoPar Lr) v := by
  obtain ⟨G, hS, hT, L1, B, U, rfl, hI⟩ := hR.unc h'
  rw [hI.memento hT]
  exact rootOf_par (hI.inv.rest_acyclic hS v)

theorem Ready.has_live (hR : Ready s0 mxw ref s1 mxb L h0) (h' : UncSteps (L, h0) (Lr, h)) {v : Nat} (hv : h.has v) :
    s0.live v ∧ rootOf (mementoPar Lr) v = v := by
  obtain ⟨G, hS, hT, L1, B, U, rfl, hI⟩ := hR.unc h'
  rw [hI.memento hT]
  have hB := hI.inv
  have hn : v < s0.n := by rw [← hB.core.nEq]; exact hv.1
  obtain ⟨h1, h2⟩ := (hB.en hS v hn).1 hv.2
  exact ⟨⟨hn, h1⟩, rootOf_self h2⟩

theorem Ready.good (hR : Ready s0 mxw ref s1 mxb L h0) {mx : Nat} (h' : UncSteps (L, h0) (Lr, h)) (hF : NFix s0 s1.h.par s0.m mx h) : h.Good s0.m mx := by
  obtain ⟨G, hS, hT, L1, B, U, rfl, hI⟩ := hR.unc h'
  exact hI.inv.good hR.clean hS hF

theorem Ready.netUsed (hR : Ready s0 mxw ref s1 mxb L h0) (h' : UncSteps (L, h0) (Lr, h)) {e : Nat} (he : e < s0.m) (hen : h.een e = true) : s0.used e := by
  obtain ⟨G, hS, hT, L1, B, U, rfl, hI⟩ := hR.unc h'
  exact ⟨he, ((hI.inv.core.een e).1 hen).1⟩

/-- the objective of a partition is the objective of the partition of the input it stands for -/
theorem Ready.objective (hR : Ready s0 mxw ref s1 mxb L h0) (h' : UncSteps (L, h0) (Lr, h)) (hz : ∀ e, s0.used e → 0 < s0.size e) (o : Metrics.Obj)
    {part Ψ : Assign} (hfull : ∀ v, h.has v → ∃ b, part v = some b) (hΨ : ∀ v, s0.live v → Ψ v = part (rootOf (mementoPar Lr) v))
    (hpin : ∀ e, e < s0.m → h.een e = true → ∀ x ∈ h.edgePins e, h.has x) (hm : h.m = s0.m) :
    h.hg.objective part o = s0.hg.objective Ψ o := by
  have hC := C27_contracted hR h'
  have hne0 : ∀ e, e < s0.m → s0.een e = true → s0.edgePins e ≠ [] := by
    intro e he hen hnil
    have h1 := hz e ⟨he, hen⟩
    have h2 := hR.clean.size e ⟨he, hen⟩
    have := congrArg List.length hnil
    unfold DH.edgePins at this
    rw [List.length_take, List.length_nil] at this
    omega
  have hp0 : ∀ e, e < s0.m → s0.een e = true → ∀ x ∈ s0.edgePins e, s0.live x := fun e he hen x hx => hR.clean.pins e ⟨he, hen⟩ x (List.mem_of_mem_take hx)
  rw [objective_netSum (ρ := fun v => (part (rootOf (mementoPar Lr) v)).getD 0), objective_netSum (h := s0) (ρ := fun v => (part (rootOf (mementoPar Lr) v)).getD 0)]
  · exact C27_objective hR h' _ (fun v => by rw [hR.root_par h']) _ (netTerm_one o)
  · exact hne0
  · intro e he hen x hx
    have hl := hp0 e he hen x hx
    rw [hΨ x hl]
    obtain ⟨b, hb⟩ := hfull _ (hR.cluster h' hl).1
    rw [hb]; rfl
  · intro e he hen hnil
    rw [hm] at he
    have hu := hR.netUsed h' he hen
    cases hq : s0.edgePins e with
    | nil => exact hne0 e he hu.2 hq
    | cons a l =>
      have ha : a ∈ s0.edgePins e := by rw [hq]; exact List.mem_cons_self
      have := (hC.pins e he hen (rootOf (mementoPar Lr) a)).2 ⟨a, ha, ((hR.cluster h' (hp0 e he hu.2 a ha)).2 _).2 rfl⟩
      rw [hnil] at this; cases this
  · intro e he hen x hx
    rw [hm] at he
    have hx' := hpin e he hen x hx
    obtain ⟨b, hb⟩ := hfull x hx'
    rw [(hR.has_live h' hx').2, hb]; rfl

/-- the weight of a block is its weight in the input -/
theorem Ready.blockWeight (hR : Ready s0 mxw ref s1 mxb L h0) (h' : UncSteps (L, h0) (Lr, h)) {part Ψ : Assign}
    (hΨ : ∀ v, s0.live v → Ψ v = part (rootOf (mementoPar Lr) v)) (hn : h.n = s0.n) (b : Nat) : h.hg.blockWeight part b = s0.hg.blockWeight Ψ b := by
  classical
  have hC := C27_contracted hR h'
  have e1 : h.hg.blockWeight part b = wtSum h part b := hgp_blockWeight (m := 0) part b
  have e2 : s0.hg.blockWeight Ψ b = wtSum s0 Ψ b := hgp_blockWeight (m := 0) Ψ b
  rw [e1, e2]
  unfold wtSum
  rw [hn]
  have hu : ∀ u ∈ Finset.range s0.n, (if h.en u = true ∧ part u = some b then h.wt u else 0) =
      ∑ v ∈ Finset.range s0.n, if (h.en u = true ∧ part u = some b) ∧ s0.en v = true ∧ rootOf (mementoPar Lr) v = u then s0.wt v else 0 := by
    intro u hu
    have hu' := Finset.mem_range.1 hu
    by_cases hc : h.en u = true ∧ part u = some b
    · rw [if_pos hc, hC.weight u hu' hc.1, Finset.sum_filter]
      refine Finset.sum_congr rfl (fun v hv => ?_)
      have hv' := Finset.mem_range.1 hv
      by_cases hl : s0.en v = true
      · have := (hR.cluster h' (v := v) ⟨hv', hl⟩).2 u
        by_cases hr : rootOf (mementoPar Lr) v = u
        · rw [if_pos ⟨hl, this.2 hr.symm⟩, if_pos ⟨hc, hl, hr⟩]
        · rw [if_neg (fun hh => hr (this.1 hh.2).symm), if_neg (fun hh => hr hh.2.2)]
      · rw [if_neg (fun hh => hl hh.1), if_neg (fun hh => hl hh.2.1)]
    · rw [if_neg hc]
      exact (Finset.sum_eq_zero (fun v _ => if_neg (fun hh => hc hh.1))).symm
  rw [Finset.sum_congr rfl hu, Finset.sum_comm]
  refine Finset.sum_congr rfl (fun v hv => ?_)
  have hv' := Finset.mem_range.1 hv
  by_cases hl : s0.en v = true
  · have hlv : s0.live v := ⟨hv', hl⟩
    have hr := (hR.cluster h' hlv).1
    rw [Finset.sum_eq_single (rootOf (mementoPar Lr) v)]
    · rw [hΨ v hlv]
      by_cases hb : part (rootOf (mementoPar Lr) v) = some b
      · rw [if_pos ⟨⟨hr.2, hb⟩, hl, rfl⟩, if_pos ⟨hl, hb⟩]
      · rw [if_neg (fun hh => hb hh.1.2), if_neg (fun hh => hb hh.2)]
    · intro u _ hne
      exact if_neg (fun hh => hne hh.2.2.symm)
    · intro hnm
      exact absurd (Finset.mem_range.2 (by rw [← hn]; exact hr.1)) hnm
  · rw [if_neg (fun hh => hl hh.1)]
    exact Finset.sum_eq_zero (fun u _ => if_neg (fun hh => hl hh.2.1))

end

end Dyn
end Verif
