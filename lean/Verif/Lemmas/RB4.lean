import Verif.Lemmas.RB3
/-! Recursive bipartitioning: one call. -/
namespace Verif
namespace RBip
open SMap (wr)
open Extract PHG HG

/-- side of a node -/
def tsk (β : Nat → Nat) (v : Nat) : Bool := decide (β v ≠ 0)
def ktOf (k : Nat) (t : Bool) : Nat := if t then k / 2 else (k + 1) / 2
def phi0 (H : SHG) (k : Nat) (β : Nat → Nat) : Assign := assignAll H.nodes (fun v => if β v = 0 then blkOf k false else blkOf k true)

section
variable {H : SHG} {k : Nat} {β : Nat → Nat}

theorem phi0_eq {v : Nat} (hv : v ∈ H.nodes) : phi0 H k β v = some (blkOf k (tsk β v)) := by
  unfold phi0 assignAll tsk blkOf
  by_cases h : β v = 0 <;> simp [h, hv]

theorem blk_ne (hk : 2 ≤ k) (t t' : Bool) (h : t ≠ t') : blkOf k t ≠ blkOf k t' := by
  unfold blkOf
  cases t <;> cases t' <;> simp at h ⊢ <;> omega

theorem phi0_iff (hk : 2 ≤ k) (t : Bool) {v : Nat} (hv : v ∈ H.nodes) :
    phi0 H k β v = some (blkOf k t) ↔ side (tsk β) v = some t.toNat := by
  rw [phi0_eq hv]
  unfold side
  constructor
  · intro h
    by_contra hne
    have : tsk β v ≠ t := fun h' => hne (by rw [h'])
    exact blk_ne hk _ _ this (Option.some.inj h)
  · intro h
    have : tsk β v = t := by
      have := Option.some.inj h
      revert this
      cases tsk β v <;> cases t <;> simp
    rw [this]

theorem phi0_kernel (hk : 2 ≤ k) {u v : Nat} (hu : u ∈ H.nodes) (hv : v ∈ H.nodes) :
    phi0 H k β u = phi0 H k β v ↔ side (tsk β) u = side (tsk β) v := by
  rw [phi0_eq hv, phi0_iff hk _ hu]
  rfl

theorem phi0_lam (hw : H.toHG.WF) (hk : 2 ≤ k) {e : Nat} (he : e ∈ H.edges) :
    H.toHG.lam (phi0 H k β) e = H.toHG.lam (side (tsk β)) e := by
  rw [lam_eq_nb, lam_eq_nb]
  apply nb_kernel
  · intro v hv; rw [phi0_eq (hw.pins_mem e he v hv)]; simp
  · intro v _; unfold side; simp
  · intro u hu v hv
    exact phi0_kernel hk (hw.pins_mem e he u hu) (hw.pins_mem e he v hv)

/-- value of the bipartition as seen by the bipartitioning -/
theorem cost_eq {pol : Policy} {old oldS : Nat → Bool} (hw : H.toHG.WF) (hβ : ∀ v ∈ H.nodes, β v < 2)
    (ho : pol.mult ≠ 1 → ∀ e ∈ H.edges, oldS e = old e) :
    (adapt H pol.mult old false).toHG.cut (fun v => some (β v)) =
      H.toHG.bipCost (tsk β) (fun e => if oldS e then H.toHG.ew e else pol.mult * H.toHG.ew e) := by
  obtain ⟨_, h2, h3, _, _, h6⟩ := adapt_spec H (mult := pol.mult) old
  unfold HG.cut HG.bipCost
  have : (adapt H pol.mult old false).toHG.edges = H.edges := h2
  rw [this]
  show _ = (H.edges.map _).sum
  congr 1
  apply List.map_congr_left
  intro e he
  have hlam : (adapt H pol.mult old false).toHG.lam (fun v => some (β v)) e = H.toHG.lam (side (tsk β)) e := by
    rw [lam_eq_nb, lam_eq_nb]
    have : (adapt H pol.mult old false).toHG.pins e = H.toHG.pins e := congrFun h3 e
    rw [this]
    apply nb_kernel
    · intro v _; simp
    · intro v _; unfold side; simp
    · intro u hu v hv
      have h1 := hβ u (hw.pins_mem e he u hu)
      have h2 := hβ v (hw.pins_mem e he v hv)
      unfold side tsk
      have hu' : β u = 0 ∨ β u = 1 := by omega
      have hv' : β v = 0 ∨ β v = 1 := by omega
      rcases hu' with hu' | hu' <;> rcases hv' with hv' | hv' <;> simp [hu', hv']
  rw [hlam]
  have hwt : (adapt H pol.mult old false).toHG.ew e = (if oldS e = true then H.toHG.ew e else pol.mult * H.toHG.ew e) := by
    have h7 : (adapt H pol.mult old false).toHG.ew e = _ := h6 e he
    rw [h7]
    by_cases hm : pol.mult = 1
    · simp [hm]
      rfl
    · rw [ho hm e he]
      cases hx : old e
      · simp [hm]; left; rfl
      · simp; rfl
  rw [hwt]

end

section
variable {σ : Type} {F : Fam σ} (FL : FamLaw F) {env : RBEnv} {pol : Policy} {H : SHG} {k : Nat} {β : Nat → Nat} {old : Nat → Bool} {fx : Nat → Option Nat}

/-- flags of the hyperedges for the recursive calls -/
def oldNext (H : SHG) (β : Nat → Nat) (o : Nat → Bool) (e : Nat) : Bool := o e || decide (H.toHG.lam (side (tsk β)) e > 1)

theorem assemble (hw : H.toHG.WF) (hk : 2 ≤ k) (hβ : ∀ v ∈ H.nodes, β v < 2) {n : Bool → Nat → Nat} {c : Bool → Int} {P' : PHG σ}
    (hsim : Sim (FL.law H.m k (max H.maxEdgeSize 1)) H.toHG P' P'.part)
    (hpart : ∀ v ∈ H.nodes, P'.part v = some (blkOf k (tsk β v) + n (tsk β v) v))
    (hrb : ∀ t, ∀ o : Nat → Bool, (pol.mult ≠ 1 → ∀ e ∈ H.edges, o e = oldNext H β old e) →
      RB pol.split pol.mult (ktOf k t) (H.toHG.restrict (side (tsk β)) t.toNat pol.split) o (n t) (c t))
    (hfix : env.Respects → FixOk H k fx → ∀ v ∈ H.nodes, ∀ d, fx v = some d → blkOf k (tsk β v) + n (tsk β v) v = d) {cst : Int}
    (hc : cst = (adapt H pol.mult old false).toHG.cut (fun v => some (β v)) + c false + c true) :
    Res FL env pol H k old fx (P', cst) := by
  refine ⟨hsim, fun v hv => by rw [hpart v hv]; simp, ?_, ?_⟩
  · intro oldS ho
    have ho' : pol.mult ≠ 1 → ∀ e ∈ H.edges, oldNext H β oldS e = oldNext H β old e := by
      intro hm e he; unfold oldNext; rw [ho hm e he]
    refine RB.two (β := tsk β) (old' := oldNext H β oldS) (Φ₀ := n false) (Φ₁ := n true) (c₀ := c false) (c₁ := c true) hk (fun _ _ => rfl)
      (hrb false _ ho') (hrb true _ ho') ?_ ?_ ?_
    · intro v hv hf
      show (P'.part v).getD 0 = _
      rw [hpart v hv, hf]
      simp [blkOf]
    · intro v hv hf
      show (P'.part v).getD 0 = _
      rw [hpart v hv, hf]
      simp only [blkOf, if_true, Option.getD_some]
      omega
    · show cst = _
      rw [hc, cost_eq hw hβ ho]
  · intro hR hF v hv d hd
    show P'.part v = some d
    rw [hpart v hv, hfix hR hF v hv d hd]

/-- the bipartitioning puts fixed vertices on the right side -/
theorem fixed_side (hok : Ok H) (hR : env.Respects) (hF : FixOk H k fx) (path : List Bool)
    (hβ : β = env.ml path (adapt H pol.mult old false) (fixBip H k fx)) {v : Nat} (hv : v ∈ H.nodes) {d : Nat} (hd : fx v = some d) :
    tsk β v = decide (k / 2 + k % 2 ≤ d) := by
  obtain ⟨h1, _, _, _, h5, _⟩ := adapt_spec H (mult := pol.mult) old
  have hh : hasFixed H fx = true := (hasFixed_iff hok.pos (fun u hu hs => by
    obtain ⟨c, hc⟩ := Option.isSome_iff_exists.1 hs
    exact (hF u hu c hc).2)).2 ⟨v, hv, by rw [hd]; rfl⟩
  have hfb : ∀ u, fixBip H k fx u = match fx u with
      | some b => if b < k / 2 + k % 2 then some 0 else some 1
      | none => none := by
    intro u; unfold fixBip; rw [if_pos hh]; cases fx u <;> rfl
  have hsome : ∀ u, (fixBip H k fx u).isSome = (fx u).isSome := by
    intro u; rw [hfb]
    cases fx u with
    | none => rfl
    | some b => simp only; split <;> rfl
  have hh2 : hasFixed (adapt H pol.mult old false) (fixBip H k fx) = true := by
    have : hasFixed (adapt H pol.mult old false) (fixBip H k fx) = hasFixed H fx := by
      unfold hasFixed
      rw [h1, h5]
      simp only [hsome]
    rw [this, hh]
  have hlt : ∀ u ∈ (adapt H pol.mult old false).nodes, ∀ b, fixBip H k fx u = some b → b < 2 := by
    intro u _ b hb
    rw [hfb] at hb
    cases hx : fx u with
    | none => rw [hx] at hb; exact absurd hb (by simp)
    | some c =>
      rw [hx] at hb
      simp only at hb
      split at hb
      · cases hb; omega
      · cases hb; omega
  have hres := hR path (adapt H pol.mult old false) (fixBip H k fx) hh2 hlt v (by rw [h1]; exact hv)
  rw [← hβ] at hres
  unfold tsk
  by_cases hlt' : d < k / 2 + k % 2
  · have := hres 0 (by rw [hfb, hd]; simp [hlt'])
    rw [this]
    simp; omega
  · have := hres 1 (by rw [hfb, hd]; simp [hlt'])
    rw [this]
    simp; omega

end
end RBip
end Verif
