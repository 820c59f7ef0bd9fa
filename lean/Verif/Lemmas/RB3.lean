import Verif.Lemmas.RB2
/-! Recursive bipartitioning: one task. -/
namespace Verif
namespace RBip
open SMap (wr)
open Extract PHG HG

/-- the connectivity information works for all sizes -/
structure FamLaw {σ : Type} (F : Fam σ) where
  law : ∀ m k mx, F.C.Lawful m k mx
  init : ∀ m k mx, 0 < k → 0 < mx → mx + 1 < 2 ^ 32 → (law m k mx).R (F.init m k mx) (fun _ _ => 0)

/-- legal schedules; the bipartitioning assigns every node to block 0 or 1 -/
structure RBEnv.Legal (env : RBEnv) : Prop where
  norder : ∀ p H, (env.norder p H).Perm H.nodes
  order : ∀ p H b, (env.order p H b).flatten.Perm H.nodes
  eorder : ∀ p H, (env.eorder p H).Perm H.edges
  x : ∀ p t H, (env.x p t H).Legal H
  visits : ∀ p H t, (((env.visits p H).filter (fun x => x.1 == t)).map (·.2)).Perm H.nodes
  ml : ∀ p H fx, ∀ v ∈ H.nodes, env.ml p H fx v < 2

/-- the bipartitioning respects fixed vertices -/
def RBEnv.Respects (env : RBEnv) : Prop :=
  ∀ p H fx, hasFixed H fx = true → (∀ v ∈ H.nodes, ∀ b, fx v = some b → b < 2) →
    ∀ v ∈ H.nodes, ∀ b, fx v = some b → env.ml p H fx v = b

/-- conditions on the input -/
structure Good (H : SHG) : Prop where
  ok : Ok H
  size : ∀ e ∈ H.edges, (H.pins e).length ≤ H.maxEdgeSize
  small : H.maxEdgeSize + 2 < 2 ^ 32

/-- fixed vertices have blocks below `k` and positive weight -/
def FixOk (H : SHG) (k : Nat) (fx : Nat → Option Nat) : Prop :=
  ∀ v ∈ H.nodes, ∀ b, fx v = some b → b < k ∧ 0 < H.hnWeight v

/-- what a call returns -/
structure Res {σ : Type} {F : Fam σ} (FL : FamLaw F) (env : RBEnv) (pol : Policy) (H : SHG) (k : Nat) (old : Nat → Bool)
    (fx : Nat → Option Nat) (r : PHG σ × Int) : Prop where
  sim : Sim (FL.law H.m k (max H.maxEdgeSize 1)) H.toHG r.1 r.1.part
  all : ∀ v ∈ H.nodes, r.1.part v ≠ none
  rb : ∀ oldS : Nat → Bool, (pol.mult ≠ 1 → ∀ e ∈ H.edges, oldS e = old e) →
    RB pol.split pol.mult k H.toHG oldS (fun v => (r.1.part v).getD 0) r.2
  fixed : env.Respects → FixOk H k fx → ∀ v ∈ H.nodes, ∀ b, fx v = some b → r.1.part v = some b

theorem Good.fits {H : SHG} (h : Good H) : H.toHG.Fits H.m (max H.maxEdgeSize 1) := by
  intro e he
  refine ⟨List.mem_range.1 (List.mem_filter.1 he).1, ?_⟩
  have := h.size e he
  show (H.pins e).length ≤ _
  omega

theorem length_le_of_inj {l l' : List Nat} (hn : l.Nodup) (f : Nat → Nat) (hf : ∀ x ∈ l', ∃ y ∈ l, f y = x) (hn' : l'.Nodup) : l'.length ≤ l.length := by
  have h : l'.toFinset ⊆ l.toFinset.image f := by
    intro x hx
    obtain ⟨y, hy, hxy⟩ := hf x (List.mem_toFinset.1 hx)
    exact Finset.mem_image.2 ⟨y, List.mem_toFinset.2 hy, hxy⟩
  have h1 := Finset.card_le_card h
  have h2 := Finset.card_image_le (s := l.toFinset) (f := f)
  rw [List.toFinset_card_of_nodup hn'] at h1
  rw [List.toFinset_card_of_nodup hn] at h2
  omega

/-- extracted blocks are valid inputs -/
theorem Good.block {H H' : SHG} {Φ : Assign} {b : Nat} {split : Bool} {f g : Nat → Nat} (h : Good H) (hB : IsBlock H Φ b split H' f g) : Good H' := by
  have hmem : ∀ x ∈ H'.nodes, ∃ v ∈ (H.toHG.restrict Φ b split).nodes, f v = x := fun x hx => (hB.iso.nodes x).1 hx
  have hlen : ∀ y ∈ H'.edges, (H'.pins y).length ≤ H.maxEdgeSize := by
    intro y hy
    obtain ⟨e, he, rfl⟩ := (hB.iso.edges y).1 hy
    have : H'.pins (g e) = ((H.toHG.restrict Φ b split).pins e).map f := hB.iso.pins e he
    rw [this, List.length_map]
    refine le_trans (List.length_filter_le _ _) ?_
    exact h.size e (List.mem_filter.1 he).1
  refine ⟨⟨hB.wf, hB.rep.small, ?_, ?_, ?_⟩, ?_, ?_⟩
  · have h1 : H'.edges.length ≤ (H.toHG.restrict Φ b split).edges.length :=
      length_le_of_inj (restrict_WF h.ok.wf Φ b split).edges_nodup g (fun y hy => (hB.iso.edges y).1 hy) hB.wf.edges_nodup
    have h2 : (H.toHG.restrict Φ b split).edges.length ≤ H.m := by
      refine le_trans (List.length_filter_le _ _) ?_
      refine le_trans (List.length_filter_le _ _) ?_
      simp
    rw [hB.edges, List.length_range] at h1
    exact le_trans h1 (le_trans h2 h.ok.smallE)
  · intro x hx
    obtain ⟨v, hv, rfl⟩ := hmem x hx
    have : H'.hnWeight (f v) = H.hnWeight v := hB.iso.nw v hv
    rw [this]
    exact h.ok.pos v (List.mem_filter.1 hv).1
  · have h1 : H'.toHG.totalWeight = ((H.toHG.restrict Φ b split).nodes.map H.hnWeight).sum := by
      unfold HG.totalWeight
      rw [((hB.iso.nodes_perm (restrict_WF h.ok.wf Φ b split) hB.wf).map H'.toHG.nw).sum_eq, List.map_map]
      congr 1
      exact List.map_congr_left (fun v hv => hB.iso.nw v hv)
    rw [h1]
    have h2 := (sum_filter_le (l := H.nodes) (w := H.hnWeight) (fun v => decide (Φ v = some b)) h.ok.pos).1
    exact le_trans h2 h.ok.total
  · intro e he
    rw [hB.edges, List.mem_range] at he
    exact (hB.maxSize _).1 (le_refl _) e he
  · have : H'.maxEdgeSize ≤ H.maxEdgeSize := (hB.maxSize _).2 (fun e he => hlen e (by rw [hB.edges, List.mem_range]; exact he))
    have := h.small
    omega

section
variable {σ : Type} {F : Fam σ} (FL : FamLaw F) {env : RBEnv} {pol : Policy} {H : SHG} {k : Nat}

theorem fixRec_eq {Φ : Assign} {b : Nat} {split : Bool} {H' : SHG} {f g : Nat → Nat} (hok : Ok H) (hB : IsBlock H Φ b split H' f g)
    {fx : Nat → Option Nat} (hfx : FixOk H k fx) {lo hi : Nat}
    (hin : ∀ v ∈ H.nodes, ∀ c, fx v = some c → lo ≤ c → c < hi → Φ v = some b) {v : Nat} (hv : v ∈ H.nodes) (hb : Φ v = some b) :
    fixRec H fx f lo hi (f v) = (fx v).bind (fun c => if c ≥ lo ∧ c < hi then some (c - lo) else none) := by
  have hvr : v ∈ (H.toHG.restrict Φ b split).nodes := List.mem_filter.2 ⟨hv, by simpa using hb⟩
  have hinj : ∀ u ∈ H.nodes, ∀ c, fx u = some c → c ≥ lo ∧ c < hi → f u = f v → u = v := by
    intro u hu c hc hr hfe
    exact hB.iso.node_inj u (List.mem_filter.2 ⟨hu, by simpa using hin u hu c hc hr.1 hr.2⟩) v hvr hfe
  unfold fixRec
  by_cases hh : hasFixed H fx = true
  · rw [if_pos hh]
    apply fixRec_fold
    · intro u hu c hc hr hfe
      have := hinj u hu c hc hr hfe
      subst this
      rw [hc]; simp only [Option.bind_some]; rw [if_pos hr]
    · cases hx : fx v with
      | none => left; rfl
      | some c =>
        by_cases hr : c ≥ lo ∧ c < hi
        · right; exact ⟨v, hv, rfl, c, hx, hr⟩
        · left; simp only [Option.bind_some]; rw [if_neg hr]
  · rw [if_neg hh]
    have : fx v = none := by
      cases hx : fx v with
      | none => rfl
      | some c =>
        exact absurd ((hasFixed_iff hok.pos (fun u hu hs => by
          obtain ⟨d, hd⟩ := Option.isSome_iff_exists.1 hs
          exact (hfx u hu d hd).2)).2 ⟨v, hv, by rw [hx]; rfl⟩) hh
    rw [this]; rfl

/-- one task: the block `b` is divided into `hi - lo` blocks -/
theorem subTask_spec (hG : Good H) {rec : SHG → Nat → (Nat → Bool) → (Nat → Option Nat) → Option (PHG σ × Int)} {lo hi : Nat} (hlh : 2 ≤ hi - lo)
    (hrec : ∀ H' old' fx', Good H' → ∃ r, rec H' (hi - lo) old' fx' = some r ∧ Res FL env pol H' (hi - lo) old' fx' r)
    {Φ : Assign} {b c : Nat} {com : Nat → Nat} {cut : Option (Nat → Bool)} {B : Block}
    (hB : Extracted H Φ b pol.split com cut B) {fx : Nat → Option Nat} {Ψ : Assign} (hΨ : ∀ v ∈ H.nodes, (Φ v = some b ↔ Ψ v = some c))
    (hl : ∀ e ∈ H.edges, (H.toHG.lam Φ e = 1 ↔ H.toHG.lam Ψ e = 1)) :
    ∃ s, subTask rec H fx lo hi B = some s ∧
      (∀ oldS : Nat → Bool, (pol.mult ≠ 1 → ∀ e ∈ H.edges, ∃ q, cut = some q ∧ oldS e = q e) →
        RB pol.split pol.mult (hi - lo) (H.toHG.restrict Ψ c pol.split) oldS s.1 s.2) ∧
      (env.Respects → FixOk H k fx → (∀ v ∈ H.nodes, ∀ d, fx v = some d → lo ≤ d → d < hi → Φ v = some b) →
        ∀ v ∈ H.nodes, Φ v = some b → ∀ d, fx v = some d → lo ≤ d → d < hi → s.1 v = d - lo) := by
  obtain ⟨H', g, h1, h2, h3, h4⟩ := hB
  have hw := hG.ok.wf
  have hiso := iso_block hw h2.iso hΨ hl
  have hG' := hG.block h2
  unfold subTask
  rw [h1]
  dsimp only
  split
  · obtain ⟨r, hr1, hr2⟩ := hrec H' B.cut (fixRec H fx B.hnMap lo hi) hG'
    rw [hr1]
    refine ⟨_, rfl, ?_, ?_⟩
    · intro oldS hold
      classical
      let oldS' : Nat → Bool := fun y => decide (∃ e ∈ (H.toHG.restrict Ψ c pol.split).edges, g e = y ∧ oldS e = true)
      have hsame : ∀ e ∈ (H.toHG.restrict Ψ c pol.split).edges, oldS e = oldS' (g e) := by
        intro e he
        rw [Bool.eq_iff_iff, decide_eq_true_eq]
        constructor
        · intro h; exact ⟨e, he, rfl, h⟩
        · rintro ⟨d, hd, hde, ho⟩
          rw [← hiso.edge_inj d hd e he hde]; exact ho
      refine RB.of_iso (hr2.rb oldS' ?_) hiso (restrict_WF hw _ _ _) h2.wf hsame
      intro hm y hy
      obtain ⟨e, he, rfl⟩ := (hiso.edges y).1 hy
      rw [← hsame e he]
      obtain ⟨q, hq, hoq⟩ := hold hm e (List.mem_filter.1 he).1
      rw [hoq, h3 q hq e ?_]
      obtain ⟨e', he', hee⟩ := (h2.iso.edges _).1 hy
      have hk : (H.toHG.restrict Ψ c pol.split).edges = (H.toHG.restrict Φ b pol.split).edges := by
        apply List.filter_congr
        intro e he
        rw [Bool.eq_iff_iff, decide_eq_true_eq, decide_eq_true_eq]
        unfold HG.keeps
        have : H.toHG.pinsIn Ψ e c = H.toHG.pinsIn Φ e b := by
          unfold HG.pinsIn
          apply List.countP_congr
          intro v hv
          simpa using (hΨ v (hw.pins_mem e he v hv)).symm
        rw [this, hl e he]
      rw [← hk]; exact he
    · intro hR hF hin v hv hvb d hd hlo hhi
      have hF' : FixOk H' (hi - lo) (fixRec H fx B.hnMap lo hi) := by
        intro x hx y hy
        obtain ⟨u, hu, rfl⟩ := (h2.iso.nodes x).1 hx
        have hu' := List.mem_filter.1 hu
        rw [fixRec_eq hG.ok h2 hF hin hu'.1 (by simpa using hu'.2)] at hy
        cases hz : fx u with
        | none => rw [hz] at hy; exact absurd hy (by simp)
        | some d' =>
          rw [hz] at hy
          simp only [Option.bind_some] at hy
          split at hy
          · have := Option.some.inj hy
            refine ⟨by omega, ?_⟩
            have e1 : H'.hnWeight (B.hnMap u) = H.hnWeight u := h2.iso.nw u hu
            rw [e1]
            exact (hF u hu'.1 d' hz).2
          · exact absurd hy (by simp)
      have hfv : fixRec H fx B.hnMap lo hi (B.hnMap v) = some (d - lo) := by
        rw [fixRec_eq hG.ok h2 hF hin hv hvb, hd]
        simp only [Option.bind_some]
        rw [if_pos ⟨hlo, hhi⟩]
      have hvr : B.hnMap v ∈ H'.nodes := (h2.iso.nodes _).2 ⟨v, List.mem_filter.2 ⟨hv, by simpa using hvb⟩, rfl⟩
      have := hr2.fixed hR hF' _ hvr _ hfv
      show (r.1.part (B.hnMap v)).getD 0 = d - lo
      rw [this]; rfl
  · rename_i hn
    have hn0 : H'.n = 0 := by omega
    have hempty : (H.toHG.restrict Ψ c pol.split).nodes = [] := by
      rw [List.eq_nil_iff_forall_not_mem]
      intro v hv
      have := (hiso.nodes (B.hnMap v)).2 ⟨v, hv, rfl⟩
      have : B.hnMap v ∈ H'.nodes := this
      rw [h2.nodes, hn0] at this
      exact absurd this (by simp)
    refine ⟨_, rfl, ?_, ?_⟩
    · intro oldS _
      exact RB_empty _ _ _ _ _ _ (by omega) (restrict_WF hw _ _ _) hempty
    · intro _ _ _ v hv hvb d _ _ _
      have : v ∈ (H.toHG.restrict Ψ c pol.split).nodes := List.mem_filter.2 ⟨hv, by simpa using (hΨ v hv).1 hvb⟩
      rw [hempty] at this
      exact absurd this (by simp)

end
end RBip
end Verif
