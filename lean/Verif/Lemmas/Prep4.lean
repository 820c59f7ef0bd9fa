import Verif.Lemmas.Prep3
/-!
# Lemmas for C46: the degree-zero nodes
-/
namespace Verif
namespace Prep
open PHG

variable {σ : Type} {C : ConInfo σ} {k : Nat}

theorem bubble_perm (d : Nat → Int) : ∀ (l : List Nat) (a : Nat), (bubble d (a :: l)).Perm (a :: l) := by
  intro l
  induction l with
  | nil => intro a; simp [bubble, bubbleIn]
  | cons b l ih =>
    intro a
    unfold bubble bubbleIn
    dsimp only
    split_ifs
    · exact ((ih a).cons b).trans (List.Perm.swap _ _ _)
    · exact List.Perm.refl _

theorem bubble_sorted (d : Nat → Int) : ∀ (l : List Nat) (a : Nat), l.Pairwise (fun a b => d a ≤ d b) →
    (bubble d (a :: l)).Pairwise (fun a b => d a ≤ d b) := by
  intro l
  induction l with
  | nil => intro a _; simp [bubble, bubbleIn]
  | cons b l ih =>
    intro a h
    rw [List.pairwise_cons] at h
    unfold bubble bubbleIn
    dsimp only
    split_ifs with h1
    · rw [List.pairwise_cons]
      refine ⟨fun x hx => ?_, ih a h.2⟩
      rcases List.mem_cons.1 ((bubble_perm d l a).mem_iff.1 hx) with rfl | hx
      · omega
      · exact h.1 x hx
    · rw [List.pairwise_cons, List.pairwise_cons]
      refine ⟨fun x hx => ?_, h⟩
      rcases List.mem_cons.1 hx with rfl | hx
      · omega
      · have := h.1 x hx; omega

theorem sim_node {s t : SHG} {m mx : Nat} {L : C.Lawful m k mx} {P : PHG σ} {Φ : Assign} (hS : Sim L (padded t) P Φ) {u : Nat}
    (hu : Φ u = none) : Sim L (padded (t.restoreNode u)) P Φ := by
  refine ⟨hS.part, hS.range, ?_, hS.con⟩
  intro b hb
  rw [hS.wt b hb]
  unfold HG.blockWeight
  congr 2
  show ((List.range t.n).filter t.nodeOn).filter _ = ((List.range t.n).filter (upd t.nodeOn u true)).filter _
  rw [List.filter_filter, List.filter_filter]
  apply List.filter_congr
  intro v _
  by_cases hv : v = u
  · subst hv; simp [hu]
  · rw [upd_other hv]

/-- state of the packing loop; `rest` are the nodes that are not placed yet -/
structure PackInv {m mx : Nat} (L : C.Lawful m k mx) (s : SHG) (maxw : Nat → Int) (rest : List Nat) (x : Pack σ) (Φ : Assign) : Prop where
  rel : Rel s x.s
  iso : Iso s x.s
  sim : Sim L (padded x.s) x.P Φ
  edge : ∀ e, e < s.m → x.s.edgeOn e = true
  none : ∀ u ∈ rest, Φ u = none
  perm : x.blocks.Perm (List.range k)
  sorted : x.blocks.Pairwise (fun a b => x.P.wt a - maxw a ≤ x.P.wt b - maxw b)

theorem PackInv.head {m mx : Nat} {L : C.Lawful m k mx} {s : SHG} {maxw : Nat → Int} {rest : List Nat} {x : Pack σ} {Φ : Assign}
    (h : PackInv L s maxw rest x Φ) (hk : 0 < k) : x.blocks.headD 0 < k ∧ ∀ b, b < k →
      x.P.wt (x.blocks.headD 0) - maxw (x.blocks.headD 0) ≤ x.P.wt b - maxw b := by
  have hp := h.perm
  have hs := h.sorted
  cases hb : x.blocks with
  | nil =>
    rw [hb] at hp
    have := hp.length_eq
    simp at this; omega
  | cons a l =>
    rw [hb] at hp hs
    refine ⟨List.mem_range.1 (hp.mem_iff.1 (by simp)), fun b hbk => ?_⟩
    have : b ∈ a :: l := hp.mem_iff.2 (List.mem_range.2 hbk)
    rcases List.mem_cons.1 this with rfl | hm
    · exact le_refl _
    · exact (List.pairwise_cons.1 hs).1 b hm

theorem packStep_inv {m mx : Nat} {L : C.Lawful m k mx} {s : SHG} (hF : s.Full) (hm : s.m ≤ m) (hl : ∀ e, e < s.m → (s.pins e).length ≤ mx)
    {maxw : Nat → Int} {u : Nat} {rest : List Nat}
    {x : Pack σ} {Φ : Assign} (h : PackInv L s maxw (u :: rest) x Φ) (hk : 0 < k) (hu : u < s.n) (hnets : s.nets u = []) (hnr : u ∉ rest) :
    PackInv L s maxw rest (packStep C maxw x u) (Φ.put u (x.blocks.headD 0)) ∧
    (packStep C maxw x u).P.wt = addWt x.P.wt (x.blocks.headD 0) (s.nw u) ∧
    (packStep C maxw x u).s.nodeOn = upd x.s.nodeOn u true := by
  obtain ⟨h1, h2⟩ := h.head hk
  have hrel : Rel s (x.s.restoreNode u) := h.rel.nodes _ _
  have hiso : Iso s (x.s.restoreNode u) := by
    intro v hv hon
    by_cases hvu : v = u
    · rw [hvu]; exact hnets
    · exact h.iso v hv (by
        have : (x.s.restoreNode u).nodeOn v = x.s.nodeOn v := upd_other hvu
        rw [← this]; exact hon)
  have hfit : (padded (x.s.restoreNode u)).Fits m mx := by
    have := padded_fits hrel hl
    intro e he
    exact ⟨by have := (this e he).1; omega, (this e he).2⟩
  have hsim := setNodePart_spec (padded_wf hF hrel hiso) hfit (sim_node (s := s) h.sim (h.none u (by simp))) (u := u)
    ((mem_nodes hrel).2 ⟨hu, by show upd x.s.nodeOn u true u = true; rw [upd_same]⟩) (h.none u (by simp)) h1
  have hwt : (packStep C maxw x u).P.wt = addWt x.P.wt (x.blocks.headD 0) (s.nw u) := by
    show addWt x.P.wt _ (x.s.nw u) = _
    rw [h.rel.static.nw]
  refine ⟨⟨hrel, hiso, hsim, h.edge, ?_, ?_, ?_⟩, hwt, rfl⟩
  · intro v hv
    have hvu : v ≠ u := fun hh => hnr (hh ▸ hv)
    rw [Assign.put_other Φ hvu]
    exact h.none v (by simp [hv])
  · have hp := h.perm
    show (bubble _ x.blocks).Perm _
    cases hb : x.blocks with
    | nil => rw [hb] at hp; simpa [bubble] using hp
    | cons a l => rw [hb] at hp; exact (bubble_perm _ l a).trans hp
  · show (bubble (fun b => (packStep C maxw x u).P.wt b - maxw b) x.blocks).Pairwise _
    have hp := h.perm
    have hs := h.sorted
    cases hb : x.blocks with
    | nil => simp [bubble]
    | cons a l =>
      rw [hb] at hp hs hwt
      apply bubble_sorted
      have hnd : (a :: l).Nodup := hp.nodup_iff.2 List.nodup_range
      rw [List.nodup_cons] at hnd
      refine (List.pairwise_cons.1 hs).2.imp_of_mem ?_
      intro b c hbm hcm hbc
      rw [hwt]
      have hba : b ≠ a := fun hh => hnd.1 (hh ▸ hbm)
      have hca : c ≠ a := fun hh => hnd.1 (hh ▸ hcm)
      simp only [addWt, List.headD_cons, hba, hca, if_false]
      exact hbc

/-- the loop: nodes of `l` are placed one after the other into a block with most free space -/
theorem pack_run {m mx : Nat} {L : C.Lawful m k mx} {s : SHG} (hF : s.Full) (hm : s.m ≤ m) (hl : ∀ e, e < s.m → (s.pins e).length ≤ mx)
    {maxw : Nat → Int} (hk : 0 < k) : ∀ (l rest : List Nat), (l ++ rest).Nodup → (∀ u ∈ l, u < s.n ∧ s.nets u = []) → ∀ {x : Pack σ} {Φ : Assign},
    PackInv L s maxw (l ++ rest) x Φ →
    ∃ Φ', PackInv L s maxw rest (l.foldl (packStep C maxw) x) Φ' ∧ (∀ v, v ∉ l → Φ' v = Φ v) ∧ (∀ v ∈ l, ∃ b < k, Φ' v = some b) ∧
      ∀ v, v < s.n → ((l.foldl (packStep C maxw) x).s.nodeOn v = true ↔ (x.s.nodeOn v = true ∨ v ∈ l)) := by
  intro l
  induction l with
  | nil => intro rest _ _ x Φ h; exact ⟨Φ, h, fun _ _ => rfl, by simp, fun v _ => by simp⟩
  | cons u l ih =>
    intro rest hn hu x Φ h
    rw [List.cons_append, List.nodup_cons] at hn
    obtain ⟨p1, p2, p3⟩ := packStep_inv hF hm hl h hk (hu u (by simp)).1 (hu u (by simp)).2 hn.1
    obtain ⟨Φ', q1, q2, q3, q4⟩ := ih rest hn.2 (fun v hv => hu v (by simp [hv])) p1
    have hul : u ∉ l := fun hh => hn.1 (by simp [hh])
    refine ⟨Φ', q1, ?_, ?_, ?_⟩
    · intro v hv
      rw [List.mem_cons, not_or] at hv
      rw [q2 v hv.2, Assign.put_other Φ hv.1]
    · intro v hv
      rcases List.mem_cons.1 hv with rfl | hv
      · exact ⟨_, (h.head hk).1, by rw [q2 v hul, Assign.put_same]⟩
      · exact q3 v hv
    · intro v hv
      rw [List.foldl_cons, q4 v hv, p3]
      by_cases hvu : v = u
      · subst hvu; rw [upd_same]; simp
      · rw [upd_other hvu]; simp [hvu]

theorem sum_addWt (f : Nat → Int) (b : Nat) (w : Int) : ∀ (l : List Nat), l.Nodup → b ∈ l →
    (l.map (addWt f b w)).sum = (l.map f).sum + w := by
  intro l
  induction l with
  | nil => intro _ h; simp at h
  | cons a l ih =>
    intro hn h
    rw [List.nodup_cons] at hn
    rw [List.map_cons, List.sum_cons, List.map_cons, List.sum_cons]
    rcases List.mem_cons.1 h with rfl | h
    · have : l.map (addWt f b w) = l.map f := List.map_congr_left (fun x hx => by
        have : x ≠ b := fun hh => hn.1 (hh ▸ hx)
        simp [addWt, this])
      rw [this]; simp [addWt]; omega
    · have : a ≠ b := fun hh => hn.1 (hh ▸ h)
      rw [ih hn.2 h]; simp [addWt, this]; omega

/-- weights of the blocks after packing -/
theorem pack_weights {m mx : Nat} {L : C.Lawful m k mx} {s : SHG} (hF : s.Full) (hm : s.m ≤ m) (hl : ∀ e, e < s.m → (s.pins e).length ≤ mx)
    {maxw : Nat → Int} (hk : 0 < k) {W : Int} (hW : 1 ≤ W) : ∀ (l : List Nat), l.Nodup → (∀ u ∈ l, u < s.n ∧ s.nets u = [] ∧ 0 ≤ s.nw u ∧ s.nw u ≤ W) →
    ∀ {x : Pack σ} {Φ : Assign}, PackInv L s maxw l x Φ → (∀ b, b < k → x.P.wt b ≤ maxw b + (W - 1)) →
    ((List.range k).map x.P.wt).sum + (l.map s.nw).sum ≤ ((List.range k).map maxw).sum →
    ∀ b, b < k → (l.foldl (packStep C maxw) x).P.wt b ≤ maxw b + (W - 1) := by
  intro l
  induction l with
  | nil => intro _ _ x Φ _ h _; exact h
  | cons u l ih =>
    intro hn hu x Φ h hb hsum
    rw [List.nodup_cons] at hn
    obtain ⟨u1, u2, u3, u4⟩ := hu u (by simp)
    obtain ⟨p1, p2, p3⟩ := packStep_inv hF hm hl h hk u1 u2 hn.1
    obtain ⟨h1, h2⟩ := h.head hk
    have hrest : 0 ≤ (l.map s.nw).sum := List.sum_nonneg (fun w hw => by
      obtain ⟨v, hv, rfl⟩ := List.mem_map.1 hw
      exact (hu v (by simp [hv])).2.2.1)
    rw [List.map_cons, List.sum_cons] at hsum
    refine ih hn.2 (fun v hv => hu v (by simp [hv])) p1 ?_ ?_
    · intro b hbk
      rw [p2]
      unfold addWt
      split_ifs with hbb
      · by_cases hz : s.nw u = 0
        · rw [hz]; have := hb b hbk; omega
        · have hneg : x.P.wt b - maxw b < 0 := by
            by_contra hc
            have hle : ((List.range k).map maxw).sum ≤ ((List.range k).map x.P.wt).sum := by
              apply List.sum_le_sum
              intro c hc'
              have := h2 c (List.mem_range.1 hc')
              rw [← hbb] at this
              omega
            omega
          omega
      · exact hb b hbk
    · rw [p2, sum_addWt _ _ _ _ List.nodup_range (List.mem_range.2 h1)]
      omega

end Prep
end Verif
