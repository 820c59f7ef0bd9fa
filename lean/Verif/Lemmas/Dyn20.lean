import Verif.Lemmas.Dyn18
/-!
# Uncontraction: the calls made for a node
-/
namespace Verif
namespace Dyn
open SMap (wr)

variable {n : Nat} {L : Nat → Prop} {mg mid : Nat → Bool} {par : Nat → Nat} {kids sg : Nat → List Nat} {ver : Nat → Nat}
  {keep : Op → Nat → Bool} {v0 : Nat → Int} {base : Nat → List Nat} {ops : Nat → List Op} {V : Nat} {s : INA}

/-- restoring the nets of `v`: the active nets afterwards -/
theorem INAOK.restore_active (h : INAOK n L mg mid par kids sg ver keep v0 base ops V s) (t : Tree n mg par kids sg) {v : Nat} (hd : mid v = true) :
    ∃ s', s.restoreNets v = some (s', (sg v).flatMap s.calls) ∧
      INAOK n L mg (wr mid v false) par kids sg ver keep v0 base (fun x => if x ∈ sg v then (ops x).tail else ops x) V s' ∧
      (∀ x ∈ sg v, s'.active x = s.active x ++ (s.again x).map Prod.fst) := by
  obtain ⟨hmv, hv⟩ := h.mm v hd
  have hlen : ((kids v).flatMap sg).length ≤ s.n := by
    have := t.length_le (h.lv v hv)
    rw [h.nEq]; omega
  obtain ⟨s', g1, g2, g3, g4⟩ := (h.part v hd).restoreNets hlen
  rw [← t.seg v] at g1 g3 g4
  obtain ⟨s2, k1, k2, _⟩ := h.restore t hd
  rw [g1] at k1
  injection k1 with k1
  injection k1 with k1 _
  subst k1
  refine ⟨s', g1, k2, ?_⟩
  intro x hx
  unfold INA.active
  rw [g3.ent, g3.szIn x hx, List.take_add, List.map_append]
  congr 2
  unfold INA.again
  exact List.prefix_iff_eq_take.1 (List.takeWhile_prefix _) |>.symm

/-- the nets of a call -/
def Call.net : Call → Nat
  | .one e => e
  | .two e => e

theorem calls_net (s : INA) (x : Nat) : (s.calls x).map Call.net = s.active x ++ (s.again x).map Prod.fst := by
  unfold INA.calls
  rw [List.map_append, List.map_map, List.map_map]
  congr 1
  · rw [show Call.net ∘ Call.two = id from rfl, List.map_id]

theorem calls_two (s : INA) (l : List Nat) (e : Nat) : Call.two e ∈ l.flatMap s.calls ↔ e ∈ l.flatMap s.active := by
  simp [INA.calls, List.mem_flatMap]

theorem calls_one (s : INA) (l : List Nat) (e : Nat) : Call.one e ∈ l.flatMap s.calls ↔ ∃ x ∈ l, e ∈ (s.again x).map Prod.fst := by
  simp [INA.calls, List.mem_flatMap]

variable {s0 : DH} {G : Gh}

/-- nets found in the lists of a node, by the complete logs -/
theorem nets_static (hc : Clean s0) (h : INAOK s0.n s0.live mg mid par kids sg ver G.keep s0.ina.vr s0.ina.active ops V s) (t : Tree s0.n mg par kids sg)
    (hlog : ∀ e, LogOK (fun x => s0.orig x e) par (fun v => G.one v e) (fun v => G.two v e))
    (hcomp : ∀ v e, par v ≠ v → G.isIn s0 par v e → (∀ k < ver v, G.rem k e = false) → G.one v e = true ∨ G.two v e = true)
    {x : Nat} (hx : s0.live x) (hm : mg x = false) (hk : ∀ y ∈ sg x, ∀ w, par w = y → w ≠ y → mg w = true) :
    ((sg x).flatMap s.active).Nodup ∧ ∀ e, e ∈ (sg x).flatMap s.active ↔
      G.isIn s0 par x e ∧ ((∀ k < V, G.rem k e = false) ∧ (mid x = true → G.one x e = false)) := by
  classical
  refine t.nets (orig := s0.orig) (one := G.one) (two := G.two) (base := fun y => if s0.live y then s0.ina.active y else [])
    (Q := fun e => (∀ k < V, G.rem k e = false) ∧ (mid x = true → G.one x e = false)) hlog hx.1 ?_ ?_ ?_ ?_
  · intro e hq y hy w hw hne h2
    rw [t.kid]
    exact ⟨hk y hy w hw hne, hw⟩
  · intro e hq y hy w hw hin
    have hmw := ((t.kid w y).1 hw).1
    refine hcomp w e (t.par_ne hmw) hin ?_
    intro k hk'
    exact hq.1 k (Nat.lt_of_lt_of_le hk' (h.stk w hmw).1)
  · intro y hy
    by_cases hl : s0.live y
    · simp only [hl, if_true]; exact hc.nets y hl
    · simp only [hl, if_false]
      refine ⟨by simp, fun e => ?_⟩
      constructor
      · intro h; simp at h
      · intro h; exact absurd (hc.orig_live h) hl
  · intro y hy
    have hly := h.mem_live t hx hy
    obtain ⟨h1, h2⟩ := h.activeSpec hly (hc.nets y hly).1
    refine ⟨h1, fun e => ?_⟩
    rw [h2]
    simp only [hly, if_true]
    have e1 : (∀ z, mg z = true ∨ mid z = true → y ∈ sg z → G.keep (Op.contr z) e = true) ↔
        (∀ z ∈ sg x, z ≠ x → y ∈ sg z → G.one z e = false) ∧ (mid x = true → G.one x e = false) := by
      constructor
      · intro h
        constructor
        · intro z hz hne hyz
          have := h z (Or.inl (t.inner_mg hz hne)) hyz
          simpa [Gh.keep] using this
        · intro hd
          have := h x (Or.inr hd) hy
          simpa [Gh.keep] using this
      · rintro ⟨ha, hb⟩ z hz hyz
        have hzn : z < s0.n := by
          rcases hz with hz | hz
          · exact (t.lt z hz).1
          · exact h.lv z (h.mm z hz).2
        have hzx : z ∈ sg x := t.head_of hx.1 hm hzn hyz hy
        by_cases hne : z = x
        · subst hne
          rcases hz with hz | hz
          · rw [hm] at hz; cases hz
          · have := hb hz
            simpa [Gh.keep] using this
        · have := ha z hzx hne hyz
          simpa [Gh.keep] using this
    have e2 : (∀ k < V, G.keep (Op.ver k) e = true) ↔ ∀ k < V, G.rem k e = false := by
      simp [Gh.keep]
    rw [e1, e2]
    constructor
    · rintro ⟨a, ⟨b, c⟩, d⟩; exact ⟨a, b, d, c⟩
    · rintro ⟨a, b, d, c⟩; exact ⟨a, ⟨b, c⟩, d⟩

/-- the calls made when the contraction of `v` is undone: one for each net it changed -/
theorem restore_calls (hc : Clean s0) (h : INAOK s0.n s0.live mg mid par kids sg ver G.keep s0.ina.vr s0.ina.active ops V s) (t : Tree s0.n mg par kids sg)
    (hlog : ∀ e, LogOK (fun x => s0.orig x e) par (fun v => G.one v e) (fun v => G.two v e))
    (hlogU : ∀ v e, G.one v e = true ∨ G.two v e = true → ∀ k < ver v, G.rem k e = false)
    (hcomp : ∀ v e, par v ≠ v → G.isIn s0 par v e → (∀ k < ver v, G.rem k e = false) → G.one v e = true ∨ G.two v e = true)
    {v : Nat} (hd : mid v = true) (hpv : par v ≠ v) (hver : ver v = V) (hk : ∀ y ∈ sg v, ∀ w, par w = y → w ≠ y → mg w = true) :
    ∃ s' cs, s.restoreNets v = some (s', cs) ∧
      INAOK s0.n s0.live mg (wr mid v false) par kids sg ver G.keep s0.ina.vr s0.ina.active (fun x => if x ∈ sg v then (ops x).tail else ops x) V s' ∧
      cs.Nodup ∧ (∀ e, Call.two e ∈ cs ↔ G.two v e = true) ∧ (∀ e, Call.one e ∈ cs ↔ G.one v e = true) := by
  obtain ⟨hm, hv⟩ := h.mm v hd
  obtain ⟨s', g1, g2, g3⟩ := h.restore_active t hd
  obtain ⟨a1, a2⟩ := nets_static hc h t hlog hcomp hv hm hk
  obtain ⟨b1, b2⟩ := nets_static hc g2 t hlog hcomp hv hm hk
  have hnet : ((sg v).flatMap s.calls).map Call.net = (sg v).flatMap s'.active := by
    rw [List.map_flatMap]
    rw [List.flatMap_def, List.flatMap_def]
    congr 1
    refine List.map_congr_left ?_
    intro x hx
    rw [calls_net, g3 x hx]
  have hnd : ((sg v).flatMap s.calls).Nodup := by
    rw [← hnet] at b1
    exact List.Nodup.of_map _ b1
  have htwo : ∀ e, Call.two e ∈ (sg v).flatMap s.calls ↔ G.two v e = true := by
    intro e
    rw [calls_two, a2]
    constructor
    · rintro ⟨h1, h2, h3⟩
      rcases hcomp v e hpv h1 (by rw [hver]; exact h2) with h4 | h4
      · rw [h3 hd] at h4; cases h4
      · exact h4
    · intro h1
      refine ⟨(hlog e |>.inn v (Or.inr h1)).1, ?_, ?_⟩
      · rw [← hver]; exact hlogU v e (Or.inr h1)
      · intro _
        rw [bool_false_iff]; intro h2
        have := (hlog e).excl v h2
        rw [h1] at this; cases this
  refine ⟨s', _, g1, g2, hnd, htwo, ?_⟩
  intro e
  have hsum : e ∈ (sg v).flatMap s'.active ↔ Call.two e ∈ (sg v).flatMap s.calls ∨ Call.one e ∈ (sg v).flatMap s.calls := by
    rw [← hnet, List.mem_map]
    constructor
    · rintro ⟨c, hc, rfl⟩
      cases c with
      | one e => exact Or.inr hc
      | two e => exact Or.inl hc
    · rintro (h | h)
      · exact ⟨_, h, rfl⟩
      · exact ⟨_, h, rfl⟩
  have hiff : e ∈ (sg v).flatMap s'.active ↔ G.one v e = true ∨ G.two v e = true := by
    rw [b2]
    constructor
    · rintro ⟨h1, h2, _⟩
      exact hcomp v e hpv h1 (by rw [hver]; exact h2)
    · intro h1
      refine ⟨(hlog e |>.inn v h1).1, ?_, ?_⟩
      · rw [← hver]; exact hlogU v e h1
      · rw [wr_same]; intro h; cases h
  constructor
  · intro h1
    have h2 := hiff.1 (hsum.2 (Or.inr h1))
    rcases h2 with h2 | h2
    · exact h2
    · exfalso
      -- both calls for the same net
      have h3 := (htwo e).2 h2
      rw [← hnet] at b1
      have := List.inj_on_of_nodup_map b1 h1 h3 rfl
      cases this
  · intro h1
    rcases hsum.1 (hiff.2 (Or.inl h1)) with h2 | h2
    · have := (hlog e).excl v h1
      rw [(htwo e).1 h2] at this; cases this
    · exact h2

end Dyn
end Verif
