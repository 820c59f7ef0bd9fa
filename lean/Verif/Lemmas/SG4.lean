import Verif.Lemmas.SG3
import Mathlib.Algebra.BigOperators.Group.Finset.Basic
import Mathlib.Algebra.BigOperators.Group.Finset.Piecewise
import Mathlib.Algebra.Order.BigOperators.Group.Finset
/-!
# The coarse graph
-/
namespace Verif
open SMap (wr)
namespace SG
open SGraph (Joins between)

/-- edge `x` is the first edge joining its two clusters -/
def First (M : Nat) (ends : Nat → Nat × Nat) (cid : Nat → Nat) (x : Nat) : Prop :=
  x < M ∧ cid (ends x).1 ≠ cid (ends x).2 ∧
    ∀ z < M, Joins ends cid (cid (ends x).1) (cid (ends x).2) z → x ≤ z

theorem joins_self (ends : Nat → Nat × Nat) (cid : Nat → Nat) (x : Nat) :
    Joins ends cid (cid (ends x).1) (cid (ends x).2) x := Or.inl ⟨rfl, rfl⟩

theorem joins_iff {ends : Nat → Nat × Nat} {cid : Nat → Nat} {c d x : Nat} (h : Joins ends cid c d x) (z : Nat) :
    Joins ends cid (cid (ends x).1) (cid (ends x).2) z ↔ Joins ends cid c d z := by
  rcases h with ⟨rfl, rfl⟩ | ⟨rfl, rfl⟩
  · exact Iff.rfl
  · exact joins_comm _ _ _ _ _

theorem between_congr {M : Nat} {ends : Nat → Nat × Nat} {w : Nat → Int} {cid : Nat → Nat} {c d c' d' : Nat}
    (h : ∀ z, Joins ends cid c d z ↔ Joins ends cid c' d' z) :
    between M ends w cid c d = between M ends w cid c' d' := by
  unfold between
  congr 2
  apply List.filter_congr
  intro z _
  simp [h z]

section
variable {G : SGraph} {ends : Nat → Nat × Nat} {w : Nat → Int} {com cid : Nat → Nat} {n' : Nat}

theorem first_iff (hR : G.Rep ends w) (hC : CoarseSpec G com cid n') (x : Nat) :
    First (G.m / 2) ends cid x ↔ ∃ c < n', ∃ t ∈ canon (G.m / 2) n' ends w cid c, t.id = x := by
  constructor
  · rintro ⟨hx, hne, hmin⟩
    have hl := joins_lt hR hC hx (joins_self ends cid x)
    exact ⟨_, hl.1, _, mem_canon.2 ⟨_, x, hl.2, fun h => hne h.symm, hx, joins_self ends cid x, hmin, rfl⟩, rfl⟩
  · rintro ⟨c, hc, t, ht, rfl⟩
    obtain ⟨d, x, hd, hdc, hx, hj, hmin, rfl⟩ := mem_canon.1 ht
    refine ⟨hx, ?_, fun z hz hjz => hmin z hz ((joins_iff hj z).1 hjz)⟩
    rcases hj with ⟨h1, h2⟩ | ⟨h1, h2⟩
    · simp only; rw [h1, h2]; exact fun h => hdc h.symm
    · simp only; rw [h1, h2]; exact hdc

theorem canon_ids (hR : G.Rep ends w) (hC : CoarseSpec G com cid n') (c : Nat) :
    ((canon (G.m / 2) n' ends w cid c).map TE.id).Nodup ∧
    ∀ x, x ∈ (canon (G.m / 2) n' ends w cid c).map TE.id ↔
      First (G.m / 2) ends cid x ∧ (c = cid (ends x).1 ∨ c = cid (ends x).2) := by
  constructor
  · rw [List.Nodup, List.pairwise_map]
    refine (canon_sorted (G.m / 2) n' ends w cid c).imp_of_mem ?_
    intro a b ha hb hab hid
    obtain ⟨d, x, hd, hdc, hx, hj, hmin, rfl⟩ := mem_canon.1 ha
    obtain ⟨d', x', hd', hdc', hx', hj', hmin', rfl⟩ := mem_canon.1 hb
    simp only at hid hab
    subst hid
    rcases hj with ⟨h1, h2⟩ | ⟨h1, h2⟩ <;> rcases hj' with ⟨h3, h4⟩ | ⟨h3, h4⟩ <;> omega
  · intro x
    constructor
    · intro h
      obtain ⟨t, ht, rfl⟩ := List.mem_map.1 h
      obtain ⟨d, x, hd, hdc, hx, hj, hmin, rfl⟩ := mem_canon.1 ht
      refine ⟨⟨hx, ?_, fun z hz hjz => hmin z hz ((joins_iff hj z).1 hjz)⟩, ?_⟩
      · simp only
        rcases hj with ⟨h1, h2⟩ | ⟨h1, h2⟩ <;> omega
      · simp only
        rcases hj with ⟨h1, h2⟩ | ⟨h1, h2⟩ <;> omega
    · rintro ⟨⟨hx, hne, hmin⟩, hc⟩
      have hl := joins_lt hR hC hx (joins_self ends cid x)
      rcases hc with rfl | rfl
      · exact List.mem_map.2 ⟨_, mem_canon.2 ⟨_, x, hl.2, fun h => hne h.symm, hx, joins_self ends cid x, hmin, rfl⟩, rfl⟩
      · exact List.mem_map.2 ⟨_, mem_canon.2 ⟨_, x, hl.1, hne, hx, (joins_self ends cid x).symm,
          fun z hz hjz => hmin z hz hjz.symm, rfl⟩, rfl⟩

open Classical in
/-- every first edge is listed at exactly two coarse nodes -/
theorem canon_total (hR : G.Rep ends w) (hC : CoarseSpec G com cid n') (mk : Nat → Nat)
    (hmk : ∀ x, mk x = if First (G.m / 2) ends cid x then 1 else 0) :
    psum (fun c => (canon (G.m / 2) n' ends w cid c).length) n' = 2 * psum mk (G.m / 2) := by
  classical
  have hps : ∀ (f : Nat → Nat) (n : Nat), psum f n = ∑ i ∈ Finset.range n, f i := by
    intro f n
    induction n with
    | zero => simp [psum]
    | succ n ih => rw [psum_succ, ih, Finset.sum_range_succ]
  let R : Finset Nat := (Finset.range (G.m / 2)).filter (fun x => First (G.m / 2) ends cid x)
  have hlen : ∀ c, (canon (G.m / 2) n' ends w cid c).length =
      ∑ x ∈ R, (if c = cid (ends x).1 ∨ c = cid (ends x).2 then 1 else 0) := by
    intro c
    rw [← Finset.card_filter]
    obtain ⟨h1, h2⟩ := canon_ids hR hC c
    have h3 : (R.filter (fun x => c = cid (ends x).1 ∨ c = cid (ends x).2)) =
        ((canon (G.m / 2) n' ends w cid c).map TE.id).toFinset := by
      ext x
      rw [List.mem_toFinset, h2, Finset.mem_filter, Finset.mem_filter, Finset.mem_range]
      constructor
      · rintro ⟨⟨_, h⟩, h'⟩; exact ⟨h, h'⟩
      · rintro ⟨h, h'⟩; exact ⟨⟨h.1, h⟩, h'⟩
    rw [h3, List.toFinset_card_of_nodup h1, List.length_map]
  rw [hps, hps]
  simp only [hlen]
  rw [Finset.sum_comm]
  have hin : ∀ x ∈ R, (∑ c ∈ Finset.range n', if c = cid (ends x).1 ∨ c = cid (ends x).2 then 1 else 0) = 2 := by
    intro x hx
    have hF := (Finset.mem_filter.1 hx).2
    have hl := joins_lt hR hC hF.1 (joins_self ends cid x)
    rw [← Finset.card_filter]
    have : (Finset.range n').filter (fun c => c = cid (ends x).1 ∨ c = cid (ends x).2) =
        {cid (ends x).1, cid (ends x).2} := by
      ext c
      simp only [Finset.mem_filter, Finset.mem_range, Finset.mem_insert, Finset.mem_singleton]
      constructor
      · exact fun h => h.2
      · rintro (rfl | rfl)
        · exact ⟨hl.1, Or.inl rfl⟩
        · exact ⟨hl.2, Or.inr rfl⟩
    rw [this, Finset.card_pair hF.2.1]
  rw [Finset.sum_congr rfl hin]
  simp only [hmk]
  rw [← Finset.card_filter, Finset.sum_const]
  simp only [R]
  exact Nat.mul_comm _ _

/-! ### What `contract` computes -/

/-- the rank of unique id `x` among the kept ids -/
def rankOf (mk : Nat → Nat) (x : Nat) : Nat := psum mk x

/-- fine edge behind coarse edge `x'` -/
def orig (M : Nat) (mk : Nat → Nat) (x' : Nat) : Nat :=
  ((List.range M).find? (fun x => decide (0 < mk x ∧ psum mk x = x'))).getD 0

theorem orig_spec {M : Nat} {mk : Nat → Nat} (h01 : ∀ i, mk i ≤ 1) {x' : Nat} (h : x' < psum mk M) :
    orig M mk x' < M ∧ 0 < mk (orig M mk x') ∧ psum mk (orig M mk x') = x' := by
  obtain ⟨i, hi, h1, h2⟩ := psum_surj mk h01 h
  obtain ⟨y, hy, hpy, hyM, _⟩ := find_range (p := fun x => decide (0 < mk x ∧ psum mk x = x')) hi (by simp [h1, h2])
  have hy' : orig M mk x' = y := by unfold orig; rw [hy]; rfl
  rw [hy']
  simp only [decide_eq_true_eq] at hpy
  exact ⟨hyM, hpy⟩

theorem orig_rank {M : Nat} {mk : Nat → Nat} (h01 : ∀ i, mk i ≤ 1) {x : Nat} (hx : x < M) (h : 0 < mk x) :
    orig M mk (psum mk x) = x := by
  obtain ⟨h1, h2, h3⟩ := orig_spec h01 (psum_lt_of_pos mk h hx)
  exact psum_inj mk h2 h h3

variable {s : CSched} {tmp0 : Nat → TE} {edge0 : Nat → GEdge} {comm0 : Nat → Nat}

open Classical in
structure Result (G : SGraph) (ends : Nat → Nat × Nat) (w : Nat → Int) (com : Nat → Nat) (cid : Nat → Nat) (n' : Nat)
    (mk : Nat → Nat) (C : SGraph) : Prop where
  n : C.n = n'
  enabled : ∀ c, C.enabled c = true
  nw : ∀ c, C.nw c = ((G.nodes.filter (fun v => cid v = c)).map G.nw).sum
  m : C.m = psum (fun c => (canon (G.m / 2) n' ends w cid c).length) n'
  first : ∀ c ≤ n', C.first c = psum (fun c => (canon (G.m / 2) n' ends w cid c).length) c
  edges : ∀ c < n', rd C.edge (C.first c) (canon (G.m / 2) n' ends w cid c).length =
    (canon (G.m / 2) n' ends w cid c).map (fun t => { src := c, tgt := t.tgt, w := t.w, uid := psum mk t.id })
  marks : ∀ x, mk x = if First (G.m / 2) ends cid x then 1 else 0
  tw : C.totalWeight = G.totalWeight

theorem contract_result (hR : G.Rep ends w) (hcom : ∀ v ∈ G.nodes, com v < G.n) (hl : Legal s G com) :
    CoarseSpec G com (contract G com s tmp0 edge0 comm0).2 (contract G com s tmp0 edge0 comm0).1.n ∧
    ∃ mk, Result G ends w com (contract G com s tmp0 edge0 comm0).2 (contract G com s tmp0 edge0 comm0).1.n mk
      (contract G com s tmp0 edge0 comm0).1 := by
  classical
  have hC := coarse_spec hl.mark hcom
  have hn : (contract G com s tmp0 edge0 comm0).1.n = psum (mapping com s.mark) G.n := rfl
  have hcid : (contract G com s tmp0 edge0 comm0).2 = coarse G com (mapping com s.mark) := rfl
  rw [hcid, hn]
  refine ⟨hC, ?_⟩
  obtain ⟨cid, hcid⟩ : ∃ cid, cid = coarse G com (mapping com s.mark) := ⟨_, rfl⟩
  obtain ⟨n', hn'⟩ : ∃ n', n' = psum (mapping com s.mark) G.n := ⟨_, rfl⟩
  have hded := hl.dedup
  have hwr := hl.write
  rw [← hcid, ← hn'] at hC ⊢
  rw [← hn'] at hded hwr
  obtain ⟨deg, hdegd⟩ : ∃ deg, deg = (aggregate G cid s.agg).2 := ⟨_, rfl⟩
  have hdeg : ∀ c, ((s.copy.filter (fun v => cid v = c)).map G.degree).sum = deg c := by
    intro c
    rw [hdegd, (aggregate_spec G cid s.agg c).2]
    exact (((hl.copy.trans hl.agg.symm).filter _).map _).sum_eq
  have hcopy : ∀ c, rd (copyEdges G cid (psum deg) tmp0 s.copy).1 (psum deg c) (deg c) = tmpList G cid s.copy c :=
    fun c => copyEdges_spec G cid (psum deg) deg tmp0 s.copy (fun c d h => psum_disj deg h) hdeg c
  let D : Nat → List TE := canon (G.m / 2) n' ends w cid
  have hDn : ∀ c, dedupNode s c (tmpList G cid s.copy c) = D c := by
    intro c
    have h1 := dedupNode_spec hl c (tmpList_ok hR hC hl.copy c)
    exact h1.1.unique (canon_summ hR hC hl.copy c) h1.2 (canon_sorted ..)
  have hDl : ∀ c, (D c).length ≤ deg c := by
    intro c
    have := (canon_summ hR hC hl.copy c).length_le (canon_sorted ..)
    rw [← hcopy, rd_length] at this
    exact this
  have hall := dedupAll_spec (s := s) (deg := deg) (tmp := (copyEdges G cid (psum deg) tmp0 s.copy).1) hded
    (fun c _ => by rw [hcopy, hDn]; exact hDl c)
  simp only [hcopy, hDn] at hall
  obtain ⟨ded, hdd⟩ : ∃ ded, ded = dedupAll s (psum deg) (copyEdges G cid (psum deg) tmp0 s.copy).1 := ⟨_, rfl⟩
  rw [← hdd] at hall
  have hw := writeEdges_spec (tmp := ded.1) (start := psum deg) (size := ded.2) hwr edge0 D
    (fun c hc => by rw [(hall c hc).1]; exact (hall c hc).2) (fun c hc => (hall c hc).1)
  obtain ⟨wrt, hwt⟩ : ∃ wrt, wrt = writeEdges ded.1 (psum deg) ded.2 s.write edge0 := ⟨_, rfl⟩
  rw [← hwt] at hw
  have hps : ∀ c ≤ n', psum ded.2 c = psum (fun c => (D c).length) c := fun c hc =>
    psum_congr (fun i hi => (hall i (by omega)).1)
  have hcon : contract G com s tmp0 edge0 comm0 =
      ({ n := n', m := psum ded.2 n', enabled := fun _ => true, nw := (aggregate G cid s.agg).1, first := psum ded.2
         edge := fun e => if e < psum ded.2 n' then { wrt.1 e with uid := psum wrt.2 (wrt.1 e).uid } else wrt.1 e
         comm := s.comm.foldl (fun a v => wr a (cid v) (G.comm v)) comm0
         totalWeight := G.totalWeight }, cid) := by
    rw [hwt, hdd, hdegd, hcid, hn']; rfl
  rw [hcon]
  refine ⟨wrt.2, rfl, fun _ => rfl, ?_, ?_, ?_, ?_, ?_, rfl⟩
  · intro c
    show (aggregate G cid s.agg).1 c = _
    rw [(aggregate_spec G cid s.agg c).1]
    exact ((hl.agg.filter _).map _).sum_eq
  · exact hps n' (Nat.le_refl _)
  · intro c hc; exact hps c hc
  · intro c hc
    have h1 := hw.1 c hc
    have h2 : psum ded.2 c + (D c).length ≤ psum ded.2 n' := by
      have := psum_le_of_lt ded.2 hc
      rw [(hall c hc).1] at this; exact this
    have h3 : rd (fun e => if e < psum ded.2 n' then { wrt.1 e with uid := psum wrt.2 (wrt.1 e).uid } else wrt.1 e)
        (psum ded.2 c) (D c).length = (rd wrt.1 (psum ded.2 c) (D c).length).map
          (fun g => { g with uid := psum wrt.2 g.uid }) := by
      unfold rd
      rw [List.map_map]
      apply List.map_congr_left
      intro i hi
      have := List.mem_range.1 hi
      simp only [Function.comp]
      rw [if_pos (by omega)]
    show rd _ (psum ded.2 c) (D c).length = _
    rw [h3]
    rw [(hall c hc).1] at h1
    rw [h1, List.map_map]
    rfl
  · intro x
    rw [hw.2 x]
    have := first_iff (ends := ends) (w := w) hR hC x
    by_cases h : First (G.m / 2) ends cid x
    · rw [if_pos h, if_pos (this.1 h)]
    · rw [if_neg h, if_neg (fun h' => h (this.2 h'))]

end
end SG
end Verif
