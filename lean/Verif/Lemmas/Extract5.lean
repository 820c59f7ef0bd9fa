import Verif.Spec.Extract
import Verif.Lemmas.Hypergraph
import Mathlib.Algebra.BigOperators.Intervals
import Mathlib.Algebra.Order.BigOperators.Group.Finset
import Mathlib.Algebra.BigOperators.Ring.Finset
import Mathlib.Tactic.Ring
import Mathlib.Tactic.Linarith
/-! Objectives of refined partitions and of sub-hypergraphs (specification level). -/
namespace Verif
open Finset

/-- number of different blocks on a list of nodes -/
def nb (Φ : Assign) (l : List Nat) : Nat := ((l.filterMap Φ).toFinset).card

theorem HG.lam_eq_nb (H : HG) (Φ : Assign) (e : Nat) : H.lam Φ e = nb Φ (H.pins e) := rfl

theorem nb_eq_image {Φ : Assign} {l : List Nat} (h : ∀ v ∈ l, Φ v ≠ none) : nb Φ l = (l.toFinset.image Φ).card := by
  unfold nb
  have : l.toFinset.image Φ = (l.filterMap Φ).toFinset.image some := by
    ext x
    simp only [mem_image, List.mem_toFinset, List.mem_filterMap]
    constructor
    · rintro ⟨v, hv, rfl⟩
      cases hx : Φ v with
      | none => exact absurd hx (h v hv)
      | some b => exact ⟨b, ⟨v, hv, hx⟩, rfl⟩
    · rintro ⟨b, ⟨v, hv, hx⟩, rfl⟩; exact ⟨v, hv, hx⟩
  rw [this, card_image_of_injective _ (Option.some_injective _)]

theorem card_image_kernel {α β γ : Type} [DecidableEq α] [DecidableEq β] [DecidableEq γ] (s : Finset α) (F : α → β) (G : α → γ)
    (h : ∀ a ∈ s, ∀ b ∈ s, F a = F b ↔ G a = G b) : (s.image F).card = (s.image G).card := by
  induction s using Finset.induction_on with
  | empty => simp
  | insert a s ha ih =>
    have ih' := ih (fun x hx y hy => h x (mem_insert_of_mem hx) y (mem_insert_of_mem hy))
    rw [image_insert, image_insert]
    have : F a ∈ s.image F ↔ G a ∈ s.image G := by
      simp only [mem_image]
      constructor
      · rintro ⟨b, hb, hab⟩; exact ⟨b, hb, (h b (mem_insert_of_mem hb) a (mem_insert_self _ _)).1 hab⟩
      · rintro ⟨b, hb, hab⟩; exact ⟨b, hb, (h b (mem_insert_of_mem hb) a (mem_insert_self _ _)).2 hab⟩
    by_cases hm : F a ∈ s.image F
    · rw [insert_eq_of_mem hm, insert_eq_of_mem (this.1 hm), ih']
    · rw [card_insert_of_notMem hm, card_insert_of_notMem (fun h => hm (this.2 h)), ih']

/-- the number of blocks only depends on which nodes are in the same block -/
theorem nb_kernel {Φ Ψ : Assign} {l : List Nat} (h1 : ∀ v ∈ l, Φ v ≠ none) (h2 : ∀ v ∈ l, Ψ v ≠ none)
    (h : ∀ u ∈ l, ∀ v ∈ l, Φ u = Φ v ↔ Ψ u = Ψ v) : nb Φ l = nb Ψ l := by
  rw [nb_eq_image h1, nb_eq_image h2]
  exact card_image_kernel _ _ _ (fun a ha b hb => h a (List.mem_toFinset.1 ha) b (List.mem_toFinset.1 hb))

theorem nb_map (Φ : Assign) (f : Nat → Nat) (l : List Nat) : nb Φ (l.map f) = nb (fun v => Φ (f v)) l := by
  unfold nb; rw [List.filterMap_map]; rfl

theorem nb_le (Φ : Assign) (l : List Nat) : nb Φ l ≤ l.length :=
  le_trans (List.toFinset_card_le _) (List.length_filterMap_le _ _)

theorem nb_pos {Φ : Assign} {l : List Nat} {v : Nat} (hv : v ∈ l) (h : Φ v ≠ none) : 0 < nb Φ l := by
  unfold nb
  rw [card_pos]
  cases hx : Φ v with
  | none => exact absurd hx h
  | some b => exact ⟨b, List.mem_toFinset.2 (List.mem_filterMap.2 ⟨v, hv, hx⟩)⟩

/-- `Ψ` refines `Φ` on the nodes of `l`: the number of `Ψ`-blocks is the sum over the `Φ`-blocks -/
theorem nb_refine {Φ Ψ : Assign} {k : Nat} {l : List Nat} (h1 : ∀ v ∈ l, ∃ b < k, Φ v = some b)
    (h : ∀ u ∈ l, ∀ v ∈ l, Ψ u = Ψ v → Φ u = Φ v) :
    nb Ψ l = ∑ b ∈ range k, nb Ψ (l.filter (fun v => decide (Φ v = some b))) := by
  unfold nb
  rw [← card_biUnion]
  · congr 1
    ext x
    simp only [List.mem_toFinset, List.mem_filterMap, mem_biUnion, mem_range, List.mem_filter, decide_eq_true_eq]
    constructor
    · rintro ⟨v, hv, hx⟩
      obtain ⟨b, hb, hb2⟩ := h1 v hv
      exact ⟨b, hb, v, ⟨hv, hb2⟩, hx⟩
    · rintro ⟨b, hb, v, ⟨hv, hb2⟩, hx⟩; exact ⟨v, hv, hx⟩
  · intro b _ c _ hbc
    rw [Function.onFun, disjoint_left]
    intro x hx hy
    simp only [List.mem_toFinset, List.mem_filterMap, List.mem_filter, decide_eq_true_eq] at hx hy
    obtain ⟨u, ⟨hu, hub⟩, hux⟩ := hx
    obtain ⟨v, ⟨hv, hvb⟩, hvx⟩ := hy
    have := h u hu v hv (hux.trans hvx.symm)
    rw [hub, hvb] at this
    exact hbc (Option.some.inj this)

theorem nb_filter_self {Φ : Assign} {b : Nat} {l : List Nat} :
    nb Φ (l.filter (fun v => decide (Φ v = some b))) = if l.countP (fun v => decide (Φ v = some b)) = 0 then 0 else 1 := by
  rw [List.countP_eq_length_filter]
  set l' := l.filter (fun v => decide (Φ v = some b)) with hl
  have hall : ∀ v ∈ l', Φ v = some b := fun v hv => by
    rw [hl, List.mem_filter, decide_eq_true_eq] at hv; exact hv.2
  split
  · rename_i h0
    rw [List.length_eq_zero_iff] at h0
    rw [h0]; rfl
  · rename_i h0
    obtain ⟨v, hv⟩ := List.exists_mem_of_length_pos (Nat.pos_of_ne_zero h0)
    unfold nb
    rw [card_eq_one]
    refine ⟨b, ?_⟩
    ext x
    simp only [List.mem_toFinset, List.mem_filterMap, mem_singleton]
    constructor
    · rintro ⟨u, hu, hx⟩
      rw [hall u hu] at hx
      exact (Option.some.inj hx).symm
    · rintro rfl; exact ⟨v, hv, hall v hv⟩

theorem sum_list_finset (k : Nat) (F : Nat → Nat → Int) (l : List Nat) :
    (l.map (fun e => ∑ b ∈ range k, F b e)).sum = ∑ b ∈ range k, (l.map (F b)).sum := by
  induction l with
  | nil => simp
  | cons a l ih => simp only [List.map_cons, List.sum_cons, ih, sum_add_distrib]

theorem sum_filter_ite (p : Nat → Bool) (F : Nat → Int) (l : List Nat) :
    ((l.filter p).map F).sum = (l.map (fun e => if p e = true then F e else 0)).sum := by
  induction l with
  | nil => rfl
  | cons a l ih =>
    rw [List.filter_cons]
    split
    · rename_i h; simp [ih, h]
    · rename_i h; simp [ih, h]

theorem sum_map_add' (F G : Nat → Int) (l : List Nat) :
    (l.map (fun e => F e + G e)).sum = (l.map F).sum + (l.map G).sum := by
  induction l with
  | nil => rfl
  | cons a l ih => simp only [List.map_cons, List.sum_cons, ih]; ring

namespace HG
variable {H : HG} {Φ Ψ : Assign} {k : Nat}

theorem pinsIn_eq_length (H : HG) (Φ : Assign) (e b : Nat) :
    H.pinsIn Φ e b = ((H.pins e).filter (fun v => decide (Φ v = some b))).length := by
  unfold pinsIn; rw [List.countP_eq_length_filter]

/-- all nodes are assigned to blocks below `k` -/
def Total (H : HG) (k : Nat) (Φ : Assign) : Prop := ∀ v ∈ H.nodes, ∃ b < k, Φ v = some b

/-- `Ψ` refines `Φ` -/
def Refines (H : HG) (Ψ Φ : Assign) : Prop := ∀ u ∈ H.nodes, ∀ v ∈ H.nodes, Ψ u = Ψ v → Φ u = Φ v

theorem lam_refine (hw : H.WF) (hΦ : H.Total k Φ) (hr : H.Refines Ψ Φ) {e : Nat} (he : e ∈ H.edges) (split : Bool) :
    H.lam Ψ e = ∑ b ∈ range k, (H.restrict Φ b split).lam Ψ e :=
  nb_refine (fun v hv => hΦ v (hw.pins_mem e he v hv))
    (fun u hu v hv => hr u (hw.pins_mem e he u hu) v (hw.pins_mem e he v hv))

theorem lam_blocks (hw : H.WF) (hΦ : H.Total k Φ) {e : Nat} (he : e ∈ H.edges) :
    H.lam Φ e = ∑ b ∈ range k, if H.pinsIn Φ e b = 0 then 0 else 1 := by
  rw [lam_eq_nb, nb_refine (fun v hv => hΦ v (hw.pins_mem e he v hv)) (fun _ _ _ _ h => h)]
  apply sum_congr rfl
  intro b _
  rw [nb_filter_self]; rfl

/-- block counts of a hyperedge inside a block -/
theorem restrict_lam_facts (hw : H.WF) (hΨ : ∀ v ∈ H.nodes, Ψ v ≠ none) {e : Nat} (he : e ∈ H.edges) (b : Nat) (split : Bool) :
    (H.restrict Φ b split).lam Ψ e ≤ H.pinsIn Φ e b ∧ (0 < H.pinsIn Φ e b → 0 < (H.restrict Φ b split).lam Ψ e) := by
  rw [pinsIn_eq_length]
  refine ⟨nb_le _ _, fun h => ?_⟩
  obtain ⟨v, hv⟩ := List.exists_mem_of_length_pos h
  exact nb_pos hv (hΨ v (hw.pins_mem e he v (List.mem_filter.1 hv).1))

theorem restrict_WF (hw : H.WF) (Φ : Assign) (b : Nat) (split : Bool) : (H.restrict Φ b split).WF := by
  refine ⟨hw.nodes_nodup.filter _, hw.edges_nodup.filter _, ?_, ?_, ?_, ?_⟩
  · intro e he v hv
    have hv := List.mem_filter.1 hv
    exact List.mem_filter.2 ⟨hw.pins_mem e (List.mem_filter.1 he).1 v hv.1, hv.2⟩
  · intro e he
    exact (hw.pins_nodup e (List.mem_filter.1 he).1).filter _
  · intro v hv
    exact (hw.inc_nodup v (List.mem_filter.1 hv).1).filter _
  · intro v hv e
    have hv := List.mem_filter.1 hv
    show e ∈ (H.inc v).filter _ ↔ e ∈ H.edges.filter _ ∧ v ∈ (H.pins e).filter _
    rw [List.mem_filter, List.mem_filter, List.mem_filter, hw.inc_iff v hv.1]
    constructor
    · rintro ⟨⟨h1, h2⟩, h3⟩; exact ⟨⟨h1, h3⟩, h2, hv.2⟩
    · rintro ⟨⟨h1, h3⟩, h2, _⟩; exact ⟨⟨h1, h2⟩, h3⟩

/-- km1 of a refinement, with cut-net splitting -/
theorem km1_refine (hw : H.WF) (hΦ : H.Total k Φ) (hΨ : ∀ v ∈ H.nodes, Ψ v ≠ none) (hr : H.Refines Ψ Φ) :
    H.km1 Ψ = H.km1 Φ + ∑ b ∈ range k, (H.restrict Φ b true).km1 Ψ := by
  have h2 : ∀ b, (H.restrict Φ b true).km1 Ψ =
      (H.edges.map (fun e => if H.keeps Φ b true e then (((H.restrict Φ b true).lam Ψ e : Int) - 1) * H.ew e else 0)).sum := by
    intro b
    have := sum_filter_ite (fun e => decide (H.keeps Φ b true e)) (fun e => (((H.restrict Φ b true).lam Ψ e : Int) - 1) * H.ew e) H.edges
    simp only [decide_eq_true_eq] at this
    exact this
  rw [sum_congr rfl (fun b _ => h2 b), ← sum_list_finset]
  unfold km1
  rw [← sum_map_add']
  congr 1
  apply List.map_congr_left
  intro e he
  rw [lam_refine hw hΦ hr he true, lam_blocks hw hΦ he]
  push_cast
  have : ∀ b ∈ range k, (((H.restrict Φ b true).lam Ψ e : ℕ) : Int) * H.ew e =
      (if H.pinsIn Φ e b = 0 then 0 else 1) * H.ew e +
      if H.keeps Φ b true e then (((H.restrict Φ b true).lam Ψ e : Int) - 1) * H.ew e else 0 := by
    intro b _
    obtain ⟨f1, f2⟩ := restrict_lam_facts (Φ := Φ) hw hΨ he b true
    by_cases h0 : H.pinsIn Φ e b = 0
    · have hk : ¬ H.keeps Φ b true e := fun h => by have := h.1; omega
      rw [if_pos h0, if_neg hk]
      have : (H.restrict Φ b true).lam Ψ e = 0 := by omega
      rw [this]; simp
    · by_cases h1 : H.pinsIn Φ e b = 1
      · have hk : ¬ H.keeps Φ b true e := fun h => by have := h.1; omega
        rw [if_neg h0, if_neg hk]
        have : (H.restrict Φ b true).lam Ψ e = 1 := by omega
        rw [this]; simp
      · have hk : H.keeps Φ b true e := ⟨by omega, Or.inl rfl⟩
        rw [if_neg h0, if_pos hk]; ring
  rw [sub_mul, sum_mul, sum_congr rfl this, sum_add_distrib, ← sum_mul]
  ring

/-- cut of a refinement, without cut-net splitting -/
theorem cut_refine (hw : H.WF) (hΦ : H.Total k Φ) (hΨ : ∀ v ∈ H.nodes, Ψ v ≠ none) (hr : H.Refines Ψ Φ) :
    H.cut Ψ = H.cut Φ + ∑ b ∈ range k, (H.restrict Φ b false).cut Ψ := by
  have h2 : ∀ b, (H.restrict Φ b false).cut Ψ =
      (H.edges.map (fun e => if H.keeps Φ b false e then (if (H.restrict Φ b false).lam Ψ e > 1 then H.ew e else 0) else 0)).sum := by
    intro b
    have := sum_filter_ite (fun e => decide (H.keeps Φ b false e)) (fun e => if (H.restrict Φ b false).lam Ψ e > 1 then H.ew e else 0) H.edges
    simp only [decide_eq_true_eq] at this
    exact this
  rw [sum_congr rfl (fun b _ => h2 b), ← sum_list_finset]
  unfold cut
  rw [← sum_map_add']
  congr 1
  apply List.map_congr_left
  intro e he
  have e1 := lam_refine hw hΦ hr he false
  have e2 := lam_blocks hw hΦ he
  have hfacts := fun b => restrict_lam_facts (Φ := Φ) hw hΨ he b false
  by_cases h1 : H.lam Φ e > 1
  · rw [if_pos h1, sum_eq_zero, add_zero, if_pos]
    · rw [e1]; rw [e2] at h1
      refine lt_of_lt_of_le h1 (sum_le_sum (fun b _ => ?_))
      obtain ⟨f1, f2⟩ := hfacts b
      split <;> omega
    · intro b _
      rw [if_neg]
      rintro ⟨_, h | h⟩
      · simp at h
      · omega
  · rw [if_neg h1, zero_add]
    by_cases h0 : H.lam Φ e = 0
    · have hz : ∀ b ∈ range k, H.pinsIn Φ e b = 0 := by
        intro b hb
        rw [e2] at h0
        have := (sum_eq_zero_iff.1 h0) b hb
        by_contra hc
        rw [if_neg hc] at this
        exact absurd this (by simp)
      rw [sum_eq_zero, if_neg]
      · rw [e1, sum_eq_zero]
        · simp
        · intro b hb; have := (hfacts b).1; have := hz b hb; omega
      · intro b hb
        rw [if_neg]
        rintro ⟨h, _⟩
        have := hz b hb; omega
    · have hl : H.lam Φ e = 1 := by omega
      -- exactly one block
      obtain ⟨b0, hb0⟩ : ∃ b0, H.blocksOf Φ e = {b0} := card_eq_one.1 hl
      have hb0k : b0 ∈ range k ∧ 0 < H.pinsIn Φ e b0 := by
        have : b0 ∈ H.blocksOf Φ e := by rw [hb0]; simp
        refine ⟨?_, HG.mem_blocksOf.1 this⟩
        unfold blocksOf at this
        rw [List.mem_toFinset, List.mem_filterMap] at this
        obtain ⟨v, hv, hx⟩ := this
        obtain ⟨c, hc, hc2⟩ := hΦ v (hw.pins_mem e he v hv)
        rw [hc2] at hx
        rw [← Option.some.inj hx]; exact mem_range.2 hc
      have hother : ∀ b, b ≠ b0 → H.pinsIn Φ e b = 0 := by
        intro b hb
        by_contra hc
        have : b ∈ H.blocksOf Φ e := HG.mem_blocksOf.2 (Nat.pos_of_ne_zero hc)
        rw [hb0, mem_singleton] at this
        exact hb this
      rw [sum_eq_single_of_mem b0 hb0k.1]
      · have e3 : H.lam Ψ e = (H.restrict Φ b0 false).lam Ψ e := by
          rw [e1, sum_eq_single_of_mem b0 hb0k.1]
          intro b _ hb
          have := (hfacts b).1; have := hother b hb; omega
        rw [e3]
        have := (hfacts b0).1
        by_cases hk : H.keeps Φ b0 false e
        · rw [if_pos hk]
        · rw [if_neg hk, if_neg]
          intro hgt
          exact hk ⟨by omega, Or.inr hl⟩
      · intro b _ hb
        rw [if_neg]
        rintro ⟨h, _⟩
        have := hother b hb; omega

end HG
end Verif
