import Verif.Lemmas.Dyn13
/-!
# Incident nets of a node, initial state
-/
namespace Verif
namespace Dyn
open SMap (wr)

section
variable {n : Nat} {L : Nat → Prop} {mg mid : Nat → Bool} {par : Nat → Nat} {kids sg : Nat → List Nat} {ver : Nat → Nat}
  {keep : Op → Nat → Bool} {v0 : Nat → Int} {base : Nat → List Nat} {ops : Nat → List Op} {V : Nat} {s : INA}

/-- the active nets of one array -/
theorem INAOK.activeSpec (h : INAOK n L mg mid par kids sg ver keep v0 base ops V s) {x : Nat} (hx : L x) (hb : (base x).Nodup) :
    (s.active x).Nodup ∧ ∀ e, e ∈ s.active x ↔ e ∈ base x ∧ (∀ z, mg z = true ∨ mid z = true → x ∈ sg z → keep (Op.contr z) e = true) ∧
      ∀ k < V, keep (Op.ver k) e = true := by
  have h1 := (h.arr x hx).active
  refine ⟨h1.nodup_iff.2 (hb.filter _), ?_⟩
  intro e
  unfold INA.active
  rw [h1.mem_iff, List.mem_filter, List.all_eq_true]
  constructor
  · rintro ⟨h2, h3⟩
    refine ⟨h2, fun z hz hxz => h3 _ ((h.mem x hx z).2 ⟨hz, hxz⟩), fun k hk => h3 _ ((h.vers x hx k).2 hk)⟩
  · rintro ⟨h2, h3, h4⟩
    refine ⟨h2, fun o ho => ?_⟩
    cases o with
    | contr z => exact h3 z ((h.mem x hx z).1 ho).1 ((h.mem x hx z).1 ho).2
    | ver k => exact h4 k ((h.vers x hx k).1 ho)

end

variable {s0 : DH} {mx : Int} {s : St} {G : Gh}

theorem Clean.orig_live (hc : Clean s0) {x e : Nat} (h : s0.orig x e) : s0.live x :=
  hc.pins e h.1 x (List.mem_of_mem_take h.2)

theorem RunOK.kids_fin (hi : InvP s0 s G) {v : Nat} (h0 : s.h.pend v = 0) {w : Nat} (hp : s.h.par w = v) (hne : w ≠ v) : G.fin w = true := by
  by_contra hf
  have h1 := hi.pend v
  rw [h0] at h1
  have h2 := Finset.card_eq_zero.1 h1.symm
  have h3 : w ∈ openKids s0.n s.h.par G.fin v := by
    unfold openKids
    rw [Finset.mem_filter, Finset.mem_range]
    exact ⟨(hi.root w (by rw [hp]; exact Ne.symm hne)).1.1, hp, hne, by simpa using hf⟩
  rw [h2] at h3
  exact absurd h3 (Finset.notMem_empty _)

/-- nets found in the lists of a node -/
theorem Inv.nets_of (hc : Clean s0) (hT : InvT s0 s.h G) (hE : InvE s0 s.h G) (hP : InvP s0 s G) {x : Nat} (hx : s0.live x) (hm : G.mg x = false)
    (hk : ∀ w e, s.h.par w = x → w ≠ x → G.two w e = true → G.mg w = true) :
    (G.nets s.h.ina x).Nodup ∧ ∀ e, e ∈ G.nets s.h.ina x ↔ G.isIn s0 s.h.par x e ∧ ∀ k < s.h.V, G.rem k e = false := by
  classical
  refine hT.tree.nets (orig := s0.orig) (one := G.one) (two := G.two) (base := fun y => if s0.live y then s0.ina.active y else [])
    (Q := fun e => ∀ k < s.h.V, G.rem k e = false) hE.log hx.1 ?_ ?_ ?_ ?_
  · intro e hq y hy w hw hne h2
    rw [hT.tree.kid]
    refine ⟨?_, hw⟩
    by_cases hyx : y = x
    · exact hk w e (hw.trans hyx) (by rw [← hyx]; exact hne) h2
    · have hmy := hT.tree.inner_mg hy hyx
      have hpw : s.h.par w ≠ w := by rw [hw]; exact Ne.symm hne
      by_cases hf : G.fin w = true
      · exact (hP.finD w hf).2.2.1
      · have h1 := (hP.unf w hpw (by simpa using hf)).1
        rw [hw, hP.mgD y hmy] at h1; cases h1
  · intro e hq y hy w hw hin
    have hmw := ((hT.tree.kid w y).1 hw).1
    refine hE.comp w e hmw hin ?_
    intro k hk'
    exact hq k (Nat.lt_of_lt_of_le hk' (hT.ina.stk w hmw).1)
  · intro y hy
    by_cases hl : s0.live y
    · simp only [hl, if_true]; exact hc.nets y hl
    · simp only [hl, if_false]
      refine ⟨by simp, fun e => ?_⟩
      constructor
      · intro h; simp at h
      · intro h; exact absurd (hc.orig_live h) hl
  · intro y hy
    have hly := hT.ina.mem_live hT.tree hx hy
    obtain ⟨h1, h2⟩ := hT.ina.activeSpec hly (hc.nets y hly).1
    refine ⟨h1, fun e => ?_⟩
    rw [h2]
    simp only [hly, if_true, Bool.false_eq_true, or_false]
    have e1 : (∀ z, G.mg z = true → y ∈ G.sg z → G.keep (Op.contr z) e = true) ↔ ∀ z ∈ G.sg x, z ≠ x → y ∈ G.sg z → G.one z e = false := by
      constructor
      · intro h z hz hne hyz
        have := h z (hT.tree.inner_mg hz hne) hyz
        simpa [Gh.keep] using this
      · intro h z hz hyz
        have hzx : z ∈ G.sg x := hT.tree.head_of hx.1 hm (hT.tree.lt z hz).1 hyz hy
        have := h z hzx (by rintro rfl; rw [hm] at hz; cases hz) hyz
        simpa [Gh.keep] using this
    have e2 : (∀ k < s.h.V, G.keep (Op.ver k) e = true) ↔ ∀ k < s.h.V, G.rem k e = false := by
      simp [Gh.keep]
    rw [e1, e2]

/-- history in the beginning -/
def Gh.init : Gh :=
  ⟨fun _ => false, fun _ => [], fun x => [x], fun _ => [], fun _ _ => false, fun _ _ => false, fun _ _ => false, fun _ => false, fun _ => false,
    fun _ => 0, fun _ => 0⟩

theorem Inv.init (hc : Clean s0) (mx : Int) (ref : Nat → Nat → Bool) : Inv s0 mx ⟨s0, fun _ => .idle, ref⟩ Gh.init := by
  have hin : ∀ x e, Gh.init.isIn s0 s0.par x e ↔ s0.orig x e := by
    intro x e
    unfold Gh.isIn InN Gh.init
    simp
  refine ⟨⟨rfl, rfl, Tree.init _ _, ?_, ?_⟩, ⟨?_, ?_, ?_, ?_, ?_, ?_⟩, ?_, ?_, fun i => trivial⟩
  · refine ⟨hc.inaN, fun x hx => hx.1, ?_, ?_, ?_, ?_, ?_, ?_, ?_, ?_, ?_, ?_, ?_, ?_, ?_⟩
    · intro v hv; cases hv
    · intro v hv; cases hv
    · intro h hl _ _
      obtain ⟨h1, h2, h3, h4, h5⟩ := hc.links h hl
      show RingRep s0.ina h []
      exact ⟨by simp, ⟨h1, h2⟩, ⟨h3, h4⟩, h5, by simp, by simp⟩
    · intro v hv; cases hv
    · intro v hv; cases hv
    · intro x hx
      exact ⟨hc.sz x hx, List.Perm.refl _, hc.inact x hx⟩
    · intro x hx
      show s0.ina.vr x = s0.ina.vr x + (([] : List Op).length : Int)
      simp
    · intro h hl _
      show s0.ina.dg h = (([h] : List Nat).map (fun y => (s0.ina.sz y : Int))).sum
      rw [hc.dg h hl]; simp
    · intro h hl _
      show ([] : List Op) = _
      rw [hc.V]; rfl
    · intro v hv; cases hv
    · intro x hx z
      show Op.contr z ∈ ([] : List Op) ↔ (false = true ∨ false = true) ∧ _
      simp
    · intro x hx k
      show Op.ver k ∈ ([] : List Op) ↔ k < s0.V
      rw [hc.V]; simp
    · intro x hx
      show ([] : List Op).Nodup
      simp
  · intro x hx p hp
    show p.2 = s0.ina.vr x + (([] : List Op).length : Int)
    rw [hc.act x hx p hp]; simp
  · intro e
    refine ⟨?_, ?_, ?_, ?_⟩
    · intro v h; cases h
    · intro v h; cases h
    · intro v w h; cases h
    · intro v h; rcases h with h | h <;> cases h
  · intro e he
    have hsz := hc.size e he
    refine ⟨Nat.le_of_eq hsz, ?_, ?_, ?_, ?_⟩
    · exact (hc.nodup e he).sublist (List.take_sublist _ _)
    · intro x
      have := hin x e
      unfold Gh.isIn at this
      rw [this]
      exact ⟨fun h => ⟨⟨he, h⟩, rfl, rfl⟩, fun h => h.1.2⟩
    · show ((s0.pins e).drop (s0.size e)).Nodup
      rw [hsz]; simp
    · intro x
      show x ∈ (s0.pins e).drop (s0.size e) ↔ false = true
      rw [hsz]; simp
  · intro e _; exact ⟨rfl, rfl⟩
  · intro v e h; rcases h with h | h <;> cases h
  · intro v e h; cases h
  · intro v e h; cases h
  · refine ⟨?_, fun v h => h, ?_, ?_, ?_, ?_, ?_, ?_, ?_, fun v _ => hc.ver v, ?_, hc.wt, ?_, fun v => Nat.zero_le _, ?_⟩
    · intro v h; exact absurd (hc.root v) h
    · intro v hl h
      have := hl.2
      rw [show s0.en v = false from h] at this; cases this
    · intro i j u u' v h; cases h
    · intro v h; cases h
    · intro v h; cases h
    · intro v h; exact absurd (hc.root v) h
    · intro u
      show s0.pend u = _
      rw [hc.pend u]
      symm
      rw [Finset.card_eq_zero, openKids, Finset.filter_eq_empty_iff]
      rintro v _ ⟨h1, h2, _⟩
      exact h2 ((hc.root v).symm.trans h1)
    · intro v _ h; exact absurd (hc.root v) h
    · intro v h; cases h
    · intro u
      have : inside s0 s0.par s0.en u = ∅ := by
        rw [inside, Finset.filter_eq_empty_iff]
        rintro v _ ⟨_, h2, h3⟩
        rw [h2] at h3; cases h3
      show s0.wt u = s0.wt u + ∑ v ∈ inside s0 s0.par s0.en u, s0.wt v
      rw [this, Finset.sum_empty]; omega
    · intro v h; cases h
  · refine ⟨?_, ?_, ?_, ?_, ?_, ?_⟩
    · show RemOK _ s0.V s0.removed
      rw [hc.V, hc.removed]; trivial
    · intro k e h; cases h
    · intro k j e h; cases h
    · show undoW s0.removed s0.ew = _
      rw [hc.removed]; rfl
    · show undoE s0.removed s0.een = _
      rw [hc.removed]; rfl
    · intro e
      exact ⟨fun h => ⟨h, fun k => rfl⟩, fun h => h.1⟩

end Dyn
end Verif
