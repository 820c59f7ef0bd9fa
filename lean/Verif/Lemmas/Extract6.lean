import Verif.Lemmas.Extract5
/-! Renaming of hypergraphs; recursive bipartitioning (specification level). -/
namespace Verif
open Finset
namespace HG

section iso
variable {H H' : HG} {f g : Nat → Nat}

theorem Iso.edges_perm (h : Iso H H' f g) (hw : H.WF) (hw' : H'.WF) : H'.edges.Perm (H.edges.map g) := by
  refine (List.perm_ext_iff_of_nodup hw'.edges_nodup ?_).2 ?_
  · exact List.Nodup.map_on (fun d hd e he => h.edge_inj d hd e he) hw.edges_nodup
  · intro y; rw [h.edges y, List.mem_map]

theorem Iso.nodes_perm (h : Iso H H' f g) (hw : H.WF) (hw' : H'.WF) : H'.nodes.Perm (H.nodes.map f) := by
  refine (List.perm_ext_iff_of_nodup hw'.nodes_nodup ?_).2 ?_
  · exact List.Nodup.map_on (fun d hd e he => h.node_inj d hd e he) hw.nodes_nodup
  · intro y; rw [h.nodes y, List.mem_map]

theorem Iso.lam (h : Iso H H' f g) (Φ : Assign) {e : Nat} (he : e ∈ H.edges) : H'.lam Φ (g e) = H.lam (fun v => Φ (f v)) e := by
  rw [lam_eq_nb, lam_eq_nb, h.pins e he, nb_map]

theorem Iso.pinsIn (h : Iso H H' f g) (Φ : Assign) {e : Nat} (he : e ∈ H.edges) (b : Nat) :
    H'.pinsIn Φ (g e) b = H.pinsIn (fun v => Φ (f v)) e b := by
  unfold HG.pinsIn
  rw [h.pins e he, List.countP_map]; rfl

theorem Iso.sum (h : Iso H H' f g) (hw : H.WF) (hw' : H'.WF) (F F' : Nat → Int) (hF : ∀ e ∈ H.edges, F' (g e) = F e) :
    (H'.edges.map F').sum = (H.edges.map F).sum := by
  rw [((h.edges_perm hw hw').map F').sum_eq, List.map_map]
  congr 1
  exact List.map_congr_left hF

theorem Iso.km1 (h : Iso H H' f g) (hw : H.WF) (hw' : H'.WF) (Φ : Assign) : H'.km1 Φ = H.km1 (fun v => Φ (f v)) :=
  h.sum hw hw' _ _ (fun e he => by rw [h.lam Φ he, h.ew e he])

theorem Iso.cut (h : Iso H H' f g) (hw : H.WF) (hw' : H'.WF) (Φ : Assign) : H'.cut Φ = H.cut (fun v => Φ (f v)) :=
  h.sum hw hw' _ _ (fun e he => by rw [h.lam Φ he, h.ew e he])

theorem Iso.soed (h : Iso H H' f g) (hw : H.WF) (hw' : H'.WF) (Φ : Assign) : H'.soed Φ = H.soed (fun v => Φ (f v)) :=
  h.sum hw hw' _ _ (fun e he => by rw [h.lam Φ he, h.ew e he])

theorem Iso.restrict (h : Iso H H' f g) (Φ : Assign) (b : Nat) (split : Bool) :
    Iso (H.restrict (fun v => Φ (f v)) b split) (H'.restrict Φ b split) f g := by
  have hk : ∀ e ∈ H.edges, (H'.keeps Φ b split (g e) ↔ H.keeps (fun v => Φ (f v)) b split e) := by
    intro e he
    unfold keeps
    rw [h.pinsIn Φ he, h.lam Φ he]
  constructor
  · intro u hu v hv; exact h.node_inj u (List.mem_filter.1 hu).1 v (List.mem_filter.1 hv).1
  · intro x
    show x ∈ H'.nodes.filter _ ↔ ∃ v ∈ H.nodes.filter _, f v = x
    simp only [List.mem_filter, h.nodes]
    constructor
    · rintro ⟨⟨v, hv, rfl⟩, hx⟩; exact ⟨v, ⟨hv, hx⟩, rfl⟩
    · rintro ⟨v, ⟨hv, hx⟩, rfl⟩; exact ⟨⟨v, hv, rfl⟩, hx⟩
  · intro v hv; exact h.nw v (List.mem_filter.1 hv).1
  · intro d hd e he; exact h.edge_inj d (List.mem_filter.1 hd).1 e (List.mem_filter.1 he).1
  · intro y
    show y ∈ H'.edges.filter _ ↔ ∃ e ∈ H.edges.filter _, g e = y
    simp only [List.mem_filter, h.edges, decide_eq_true_eq]
    constructor
    · rintro ⟨⟨e, he, rfl⟩, hx⟩; exact ⟨e, ⟨he, (hk e he).1 hx⟩, rfl⟩
    · rintro ⟨e, ⟨he, hx⟩, rfl⟩; exact ⟨⟨e, he, rfl⟩, (hk e he).2 hx⟩
  · intro e he; exact h.ew e (List.mem_filter.1 he).1
  · intro e he
    show (H'.pins (g e)).filter _ = ((H.pins e).filter _).map f
    rw [h.pins e (List.mem_filter.1 he).1, List.filter_map]
    rfl

theorem Iso.bipCost (h : Iso H H' f g) (hw : H.WF) (hw' : H'.WF) (β : Nat → Bool) (c c' : Nat → Int)
    (hc : ∀ e ∈ H.edges, c' (g e) = c e) : H'.bipCost β c' = H.bipCost (fun v => β (f v)) c :=
  h.sum hw hw' _ _ (fun e he => by rw [h.lam _ he, hc e he]; rfl)

/-- a recursive bipartitioning of the renamed hypergraph is one of the original -/
theorem RB.of_iso {split : Bool} {mult : Int} {k : Nat} {H' : HG} {old' : Nat → Bool} {Φ' : Nat → Nat} {c : Int}
    (hR : RB split mult k H' old' Φ' c) : ∀ {H : HG} {f g : Nat → Nat} {old : Nat → Bool}, Iso H H' f g → H.WF → H'.WF →
    (∀ e ∈ H.edges, old e = old' (g e)) → RB split mult k H old (fun v => Φ' (f v)) c := by
  induction hR with
  | one h =>
    intro H f g old hi _ _ _
    exact .one (fun v hv => h _ ((hi.nodes _).2 ⟨v, hv, rfl⟩))
  | @two H' k old' oldn β Φ Φ₀ Φ₁ c₀ c₁ c hk hold h₀ h₁ hΦ₀ hΦ₁ hc ih₀ ih₁ =>
    intro H f g old hi hw hw' ho
    have e0 := ih₀ (old := fun e => oldn (g e)) (hi.restrict (side β) 0 split) (restrict_WF hw _ _ _) (restrict_WF hw' _ _ _) (fun _ _ => rfl)
    have e1 := ih₁ (old := fun e => oldn (g e)) (hi.restrict (side β) 1 split) (restrict_WF hw _ _ _) (restrict_WF hw' _ _ _) (fun _ _ => rfl)
    refine .two (β := fun v => β (f v)) hk ?_ e0 e1 ?_ ?_ ?_
    · intro e he
      show oldn (g e) = _
      rw [hold _ ((hi.edges _).2 ⟨e, he, rfl⟩), ho e he, hi.lam _ he]
      rfl
    · intro v hv hb; exact hΦ₀ _ ((hi.nodes _).2 ⟨v, hv, rfl⟩) hb
    · intro v hv hb; exact hΦ₁ _ ((hi.nodes _).2 ⟨v, hv, rfl⟩) hb
    · rw [hc, hi.bipCost hw hw' β _ _ (fun e he => by rw [← ho e he, hi.ew e he])]

end iso

section rb
variable {split : Bool} {mult : Int}

theorem mem_restrict_side {H : HG} {β : Nat → Bool} {b : Bool} {v : Nat} :
    v ∈ (H.restrict (side β) b.toNat split).nodes ↔ v ∈ H.nodes ∧ β v = b := by
  show v ∈ H.nodes.filter _ ↔ _
  rw [List.mem_filter, decide_eq_true_eq]
  constructor
  · rintro ⟨h1, h2⟩
    refine ⟨h1, ?_⟩
    unfold side at h2
    have := Option.some.inj h2
    revert this
    cases β v <;> cases b <;> simp
  · rintro ⟨h1, h2⟩; exact ⟨h1, by unfold side; rw [h2]⟩

/-- all blocks of a recursive bipartitioning are smaller than `k` -/
theorem RB.lt {k : Nat} {H : HG} {old : Nat → Bool} {Φ : Nat → Nat} {c : Int} (h : RB split mult k H old Φ c) :
    1 ≤ k ∧ ∀ v ∈ H.nodes, Φ v < k := by
  induction h with
  | one h => exact ⟨le_refl _, fun v hv => by rw [h v hv]; exact Nat.one_pos⟩
  | @two H k old old' β Φ Φ₀ Φ₁ c₀ c₁ c hk hold h₀ h₁ hΦ₀ hΦ₁ hc ih₀ ih₁ =>
    refine ⟨by omega, fun v hv => ?_⟩
    cases hb : β v with
    | false =>
      rw [hΦ₀ v hv hb]
      have := ih₀.2 v (mem_restrict_side (b := false).2 ⟨hv, hb⟩)
      omega
    | true =>
      rw [hΦ₁ v hv hb]
      have := ih₁.2 v (mem_restrict_side (b := true).2 ⟨hv, hb⟩)
      omega

/-- cost of a hyperedge with connectivity `l` -/
def edgeCost (mult : Int) (old : Bool) (l : Nat) : Int :=
  if old then (l : Int) - 1 else if l > 1 then (l : Int) - 2 + mult else 0

theorem restrict_lam_eq {H : HG} (hw : H.WF) {Φ : Assign} {b : Nat} {Ψ Ψ' : Nat → Nat} {e : Nat} (he : e ∈ H.edges)
    (h : ∀ u ∈ H.nodes, ∀ v ∈ H.nodes, Φ u = some b → Φ v = some b → (Ψ u = Ψ v ↔ Ψ' u = Ψ' v)) :
    (H.restrict Φ b split).lam (fun v => some (Ψ v)) e = (H.restrict Φ b split).lam (fun v => some (Ψ' v)) e := by
  refine nb_kernel (by simp) (by simp) ?_
  intro u hu v hv
  have hu := List.mem_filter.1 hu
  have hv := List.mem_filter.1 hv
  rw [Option.some_inj, Option.some_inj]
  exact h u (hw.pins_mem e he u hu.1) v (hw.pins_mem e he v hv.1) (by simpa using hu.2) (by simpa using hv.2)

/-- the two sides of a step, seen from the final partition -/
theorem two_facts {H : HG} (hw : H.WF) {k : Nat} {β : Nat → Bool} {Φ Φ₀ Φ₁ : Nat → Nat}
    (l₀ : ∀ v ∈ (H.restrict (side β) 0 split).nodes, Φ₀ v < (k + 1) / 2)
    (hΦ₀ : ∀ v ∈ H.nodes, β v = false → Φ v = Φ₀ v) (hΦ₁ : ∀ v ∈ H.nodes, β v = true → Φ v = (k + 1) / 2 + Φ₁ v)
    {e : Nat} (he : e ∈ H.edges) :
    H.lam (fun v => some (Φ v)) e = (H.restrict (side β) 0 split).lam (fun v => some (Φ₀ v)) e +
      (H.restrict (side β) 1 split).lam (fun v => some (Φ₁ v)) e ∧
    H.lam (side β) e = (if H.pinsIn (side β) e 0 = 0 then 0 else 1) + (if H.pinsIn (side β) e 1 = 0 then 0 else 1) ∧
    ((H.restrict (side β) 0 split).lam (fun v => some (Φ₀ v)) e ≤ H.pinsIn (side β) e 0 ∧
      (0 < H.pinsIn (side β) e 0 → 0 < (H.restrict (side β) 0 split).lam (fun v => some (Φ₀ v)) e)) ∧
    ((H.restrict (side β) 1 split).lam (fun v => some (Φ₁ v)) e ≤ H.pinsIn (side β) e 1 ∧
      (0 < H.pinsIn (side β) e 1 → 0 < (H.restrict (side β) 1 split).lam (fun v => some (Φ₁ v)) e)) := by
  have hT : H.Total 2 (side β) := fun v _ => ⟨(β v).toNat, by cases β v <;> simp, rfl⟩
  have hmem := fun v (hv : v ∈ H.nodes) (hb : β v = false) => l₀ v (mem_restrict_side (b := false).2 ⟨hv, hb⟩)
  have hr : H.Refines (fun v => some (Φ v)) (side β) := by
    intro u hu v hv h
    have h := Option.some.inj h
    unfold side
    congr 2
    cases hbu : β u <;> cases hbv : β v
    · rfl
    · rw [hΦ₀ u hu hbu, hΦ₁ v hv hbv] at h
      have := hmem u hu hbu
      omega
    · rw [hΦ₁ u hu hbu, hΦ₀ v hv hbv] at h
      have := hmem v hv hbv
      omega
    · rfl
  have hside : ∀ v (b : Bool), side β v = some b.toNat → β v = b := by
    intro v b h
    have := Option.some.inj h
    revert this
    cases β v <;> cases b <;> simp
  have c0 : (H.restrict (side β) 0 split).lam (fun v => some (Φ v)) e = (H.restrict (side β) 0 split).lam (fun v => some (Φ₀ v)) e := by
    refine restrict_lam_eq hw he ?_
    intro u hu v hv h1 h2
    rw [hΦ₀ u hu (hside u false h1), hΦ₀ v hv (hside v false h2)]
  have c1 : (H.restrict (side β) 1 split).lam (fun v => some (Φ v)) e = (H.restrict (side β) 1 split).lam (fun v => some (Φ₁ v)) e := by
    refine restrict_lam_eq hw he ?_
    intro u hu v hv h1 h2
    rw [hΦ₁ u hu (hside u true h1), hΦ₁ v hv (hside v true h2)]
    omega
  refine ⟨?_, ?_, ?_, ?_⟩
  · rw [lam_refine hw hT hr he split, sum_range_succ, sum_range_succ, range_zero, sum_empty, zero_add, c0, c1]
  · rw [lam_blocks hw hT he, sum_range_succ, sum_range_succ, range_zero, sum_empty, zero_add]
  · exact restrict_lam_facts hw (by simp) he 0 split
  · exact restrict_lam_facts hw (by simp) he 1 split

theorem restrict_pins_ne {H : HG} {Φ : Assign} {b e : Nat} (he : e ∈ (H.restrict Φ b split).edges) : (H.restrict Φ b split).pins e ≠ [] := by
  intro h
  have h2 := (List.mem_filter.1 he).2
  rw [decide_eq_true_eq] at h2
  have h3 := h2.1
  rw [pinsIn_eq_length] at h3
  have h4 : (H.pins e).filter (fun v => decide (Φ v = some b)) = [] := h
  rw [h4] at h3
  simp at h3

theorem pins_some_side {H : HG} {β : Nat → Bool} {e : Nat} (h : H.pins e ≠ []) :
    0 < H.pinsIn (side β) e 0 ∨ 0 < H.pinsIn (side β) e 1 := by
  obtain ⟨v, hv⟩ := List.exists_mem_of_ne_nil _ h
  unfold pinsIn
  rw [List.countP_pos_iff, List.countP_pos_iff]
  cases hb : β v
  · left; exact ⟨v, hv, by simp [side, hb]⟩
  · right; exact ⟨v, hv, by simp [side, hb]⟩

/-- the sum of the costs of all bipartitions, with cut-net splitting -/
theorem RB.cost {k : Nat} {H : HG} {old : Nat → Bool} {Φ : Nat → Nat} {c : Int} (h : RB true mult k H old Φ c) :
    H.WF → (∀ e ∈ H.edges, H.pins e ≠ []) →
    c = (H.edges.map (fun e => edgeCost mult (old e) (H.lam (fun v => some (Φ v)) e) * H.ew e)).sum := by
  induction h with
  | @one H old Φ h =>
    intro hw hne
    symm
    apply List.sum_eq_zero
    intro x hx
    rw [List.mem_map] at hx
    obtain ⟨e, he, rfl⟩ := hx
    have hl : H.lam (fun v => some (Φ v)) e = 1 := by
      have : H.lam (fun v => some (Φ v)) e = H.lam (fun _ => some 0) e :=
        nb_kernel (by simp) (by simp) (by
          intro u hu v hv
          rw [h u (hw.pins_mem e he u hu), h v (hw.pins_mem e he v hv)])
      rw [this, lam_eq_nb]
      obtain ⟨v, hv⟩ := List.exists_mem_of_ne_nil _ (hne e he)
      unfold nb
      rw [card_eq_one]
      refine ⟨0, ?_⟩
      ext x
      simp only [List.mem_toFinset, List.mem_filterMap, mem_singleton, Option.some_inj]
      exact ⟨fun ⟨_, _, h⟩ => h.symm, fun h => ⟨v, hv, h.symm⟩⟩
    rw [hl]
    unfold edgeCost
    split <;> simp
  | @two H k old old' β Φ Φ₀ Φ₁ c₀ c₁ c hk hold h₀ h₁ hΦ₀ hΦ₁ hc ih₀ ih₁ =>
    intro hw hne
    have i0 := ih₀ (restrict_WF hw _ _ _) (fun e he => restrict_pins_ne he)
    have i1 := ih₁ (restrict_WF hw _ _ _) (fun e he => restrict_pins_ne he)
    have j0 := sum_filter_ite (fun e => decide (H.keeps (side β) 0 true e))
      (fun e => edgeCost mult (old' e) ((H.restrict (side β) 0 true).lam (fun v => some (Φ₀ v)) e) * H.ew e) H.edges
    have j1 := sum_filter_ite (fun e => decide (H.keeps (side β) 1 true e))
      (fun e => edgeCost mult (old' e) ((H.restrict (side β) 1 true).lam (fun v => some (Φ₁ v)) e) * H.ew e) H.edges
    rw [hc, i0.trans j0, i1.trans j1]
    unfold bipCost
    rw [← sum_map_add', ← sum_map_add']
    congr 1
    apply List.map_congr_left
    intro e he
    obtain ⟨t1, t2, ⟨t3, t4⟩, t5, t6⟩ := two_facts (split := true) hw (RB.lt h₀).2 hΦ₀ hΦ₁ he
    have hne' := pins_some_side (β := β) (hne e he)
    have k0 : H.keeps (side β) 0 true e ↔ 2 ≤ H.pinsIn (side β) e 0 := ⟨fun h => h.1, fun h => ⟨h, Or.inl rfl⟩⟩
    have k1 : H.keeps (side β) 1 true e ↔ 2 ≤ H.pinsIn (side β) e 1 := ⟨fun h => h.1, fun h => ⟨h, Or.inl rfl⟩⟩
    simp only [decide_eq_true_eq, k0, k1]
    rw [hold e he, t1, t2]
    generalize H.pinsIn (side β) e 0 = p0 at *
    generalize H.pinsIn (side β) e 1 = p1 at *
    generalize (H.restrict (side β) 0 true).lam (fun v => some (Φ₀ v)) e = a0 at *
    generalize (H.restrict (side β) 1 true).lam (fun v => some (Φ₁ v)) e = a1 at *
    unfold edgeCost
    rcases Nat.eq_zero_or_pos p0 with hp0 | hp0 <;> rcases Nat.eq_zero_or_pos p1 with hp1 | hp1
    · omega
    · have : a0 = 0 := by omega
      subst hp0 this
      have h1 := t6 hp1
      simp only [Nat.ne_of_gt hp1]
      by_cases h2 : 2 ≤ p1
      · simp [h2]
      · have : a1 = 1 := by omega
        subst this
        simp [h2]
    · have : a1 = 0 := by omega
      subst hp1 this
      have h1 := t4 hp0
      simp only [Nat.ne_of_gt hp0]
      by_cases h2 : 2 ≤ p0
      · simp [h2]
      · have : a0 = 1 := by omega
        subst this
        simp [h2]
    · have h0 := t4 hp0
      have h1 := t6 hp1
      have g0 : (if 2 ≤ p0 then ((a0 : Int) - 1) * H.ew e else 0) = ((a0 : Int) - 1) * H.ew e := by
        split
        · rfl
        · have : a0 = 1 := by omega
          subst this; simp
      have g1 : (if 2 ≤ p1 then ((a1 : Int) - 1) * H.ew e else 0) = ((a1 : Int) - 1) * H.ew e := by
        split
        · rfl
        · have : a1 = 1 := by omega
          subst this; simp
      have hgt : a0 + a1 > 1 := by omega
      simp only [Nat.ne_of_gt hp0, Nat.ne_of_gt hp1, if_false, show (1 + 1 > 1) from by omega, decide_true, Bool.or_true, if_true, g0, g1, hgt]
      cases old e <;> simp <;> ring

/-- the sum of the cuts of all bipartitions, without cut-net splitting -/
theorem RB.cost_cut {k : Nat} {H : HG} {old : Nat → Bool} {Φ : Nat → Nat} {c : Int} (h : RB false 1 k H old Φ c) :
    H.WF → c = H.cut (fun v => some (Φ v)) := by
  induction h with
  | @one H old Φ h =>
    intro hw
    symm
    apply List.sum_eq_zero
    intro x hx
    rw [List.mem_map] at hx
    obtain ⟨e, he, rfl⟩ := hx
    rw [if_neg]
    have : H.lam (fun v => some (Φ v)) e = H.lam (fun _ => some 0) e :=
        nb_kernel (by simp) (by simp) (by
          intro u hu v hv
          rw [h u (hw.pins_mem e he u hu), h v (hw.pins_mem e he v hv)])
    rw [this, lam_eq_nb]
    unfold nb
    have hsub : ((H.pins e).filterMap (fun _ => some 0)).toFinset ⊆ {0} := by
      intro x hx
      simp only [List.mem_toFinset, List.mem_filterMap, Option.some_inj] at hx
      obtain ⟨_, _, h⟩ := hx
      rw [mem_singleton]; exact h.symm
    have := card_le_card hsub
    rw [card_singleton] at this
    omega
  | @two H k old old' β Φ Φ₀ Φ₁ c₀ c₁ c hk hold h₀ h₁ hΦ₀ hΦ₁ hc ih₀ ih₁ =>
    intro hw
    have i0 := ih₀ (restrict_WF hw _ _ _)
    have i1 := ih₁ (restrict_WF hw _ _ _)
    have j0 := sum_filter_ite (fun e => decide (H.keeps (side β) 0 false e))
      (fun e => if (H.restrict (side β) 0 false).lam (fun v => some (Φ₀ v)) e > 1 then H.ew e else 0) H.edges
    have j1 := sum_filter_ite (fun e => decide (H.keeps (side β) 1 false e))
      (fun e => if (H.restrict (side β) 1 false).lam (fun v => some (Φ₁ v)) e > 1 then H.ew e else 0) H.edges
    rw [hc, i0.trans j0, i1.trans j1]
    unfold bipCost cut
    rw [← sum_map_add', ← sum_map_add']
    congr 1
    apply List.map_congr_left
    intro e he
    obtain ⟨t1, t2, ⟨t3, t4⟩, t5, t6⟩ := two_facts (split := false) hw (RB.lt h₀).2 hΦ₀ hΦ₁ he
    have k0 : H.keeps (side β) 0 false e ↔ 2 ≤ H.pinsIn (side β) e 0 ∧ H.lam (side β) e = 1 := by
      unfold keeps; simp
    have k1 : H.keeps (side β) 1 false e ↔ 2 ≤ H.pinsIn (side β) e 1 ∧ H.lam (side β) e = 1 := by
      unfold keeps; simp
    simp only [decide_eq_true_eq, k0, k1, one_mul, ite_self]
    rw [t1, t2]
    generalize H.pinsIn (side β) e 0 = p0 at *
    generalize H.pinsIn (side β) e 1 = p1 at *
    generalize (H.restrict (side β) 0 false).lam (fun v => some (Φ₀ v)) e = a0 at *
    generalize (H.restrict (side β) 1 false).lam (fun v => some (Φ₁ v)) e = a1 at *
    rcases Nat.eq_zero_or_pos p0 with hp0 | hp0 <;> rcases Nat.eq_zero_or_pos p1 with hp1 | hp1
    · have h0 : a0 = 0 := by omega
      have h1 : a1 = 0 := by omega
      subst hp0 hp1 h0 h1
      simp
    · have : a0 = 0 := by omega
      subst hp0 this
      simp only [Nat.ne_of_gt hp1]
      by_cases h2 : 2 ≤ p1
      · simp [h2]
      · simp [h2]; intro h; omega
    · have : a1 = 0 := by omega
      subst hp1 this
      simp only [Nat.ne_of_gt hp0]
      by_cases h2 : 2 ≤ p0
      · simp [h2]
      · simp [h2]; intro h; omega
    · have h0 := t4 hp0
      have h1 := t6 hp1
      have hgt : a0 + a1 > 1 := by omega
      simp [Nat.ne_of_gt hp0, Nat.ne_of_gt hp1, hgt]

end rb
end HG
end Verif
