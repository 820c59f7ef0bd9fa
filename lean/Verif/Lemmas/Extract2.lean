import Verif.Lemmas.Extract1
import Verif.Spec.ExtractedBlock
import Mathlib.Algebra.Order.BigOperators.Group.List
/-! The constructed hypergraph is the renamed sub-hypergraph. -/
namespace Verif
open Factory

theorem idxOf_inj {l : List Nat} {a b : Nat} (ha : a ∈ l) (h : l.idxOf a = l.idxOf b) : a = b := by
  have h1 := List.getElem_idxOf (List.idxOf_lt_length_iff.2 ha)
  have hb : l.idxOf b < l.length := by rw [← h]; exact List.idxOf_lt_length_iff.2 ha
  have h2 := List.getElem_idxOf hb
  simp only [h] at h1
  exact h1.symm.trans h2

theorem exists_idxOf {l : List Nat} (hn : l.Nodup) {i : Nat} (hi : i < l.length) : l[i] ∈ l ∧ l.idxOf l[i] = i :=
  ⟨List.getElem_mem _, hn.idxOf_getElem i hi⟩

/-- sum over indices = sum over the list -/
theorem sum_range_idxOf {l : List Nat} (hn : l.Nodup) (w w' : Nat → Int) (h : ∀ v ∈ l, w (l.idxOf v) = w' v) :
    ((List.range l.length).map w).sum = (l.map w').sum := by
  have : (List.range l.length).map w = l.map w' := by
    apply List.ext_getElem
    · simp
    · intro i h1 h2
      have hi : i < l.length := by simpa using h1
      obtain ⟨hm, hx⟩ := exists_idxOf hn hi
      simp only [List.getElem_map, List.getElem_range]
      rw [← h _ hm, hx]
  rw [this]

theorem sum_filter_le {l : List Nat} {w : Nat → Int} (p : Nat → Bool) (hw : ∀ v ∈ l, 0 ≤ w v) :
    ((l.filter p).map w).sum ≤ (l.map w).sum ∧ 0 ≤ (l.map w).sum := by
  induction l with
  | nil => simp
  | cons a l ih =>
    obtain ⟨h1, h2⟩ := ih (fun v hv => hw v (by simp [hv]))
    have ha := hw a (by simp)
    rw [List.filter_cons]
    split
    · simp only [List.map_cons, List.sum_cons]; omega
    · simp only [List.map_cons, List.sum_cons]; omega

namespace Extract
variable {H : SHG} {Φ : Assign} {b : Nat} {split stable : Bool} {L S : List Nat} {f : Nat → Nat} {ev : Nat → List Nat}
  {ew nw : Nat → Int} {arr0 nets0 : Nat → Nat}

theorem core (hw : H.toHG.WF) (hL : L.Perm (H.nodes.filter (fun v => decide (Φ v = some b))))
    (hf : ∀ v ∈ L, f v = L.idxOf v) (hS : S.Perm (H.edges.filter (fun e => decide (H.toHG.keeps Φ b split e))))
    (hev : ∀ e ∈ S, ev (S.idxOf e) = ((H.pins e).filter (fun v => decide (Φ v = some b))).map f)
    (hew : ∀ e ∈ S, ew (S.idxOf e) = H.heWeight e) (hnw : ∀ v ∈ L, nw (L.idxOf v) = H.hnWeight v)
    (hsmall : H.n ≤ kInvalid) (hpos : ∀ v ∈ H.nodes, 0 ≤ H.hnWeight v) (htot : H.toHG.totalWeight ≤ 2147483647)
    {n m : Nat} (hn : n = L.length) (hm : m = S.length) {s : FSched n} (hs : s.Legal m ev) :
    ∃ H', construct n m m ev (some ew) (some nw) stable s arr0 nets0 = some H' ∧
      H'.n = L.length ∧ H'.m = S.length ∧ IsBlock H Φ b split H' f (S.idxOf) := by
  subst hn hm
  have hnodesH : H.nodes.Nodup := hw.nodes_nodup
  have hedgesH : H.edges.Nodup := hw.edges_nodup
  have hLn : L.Nodup := hL.nodup_iff.2 (hnodesH.filter _)
  have hSn : S.Nodup := hS.nodup_iff.2 (hedgesH.filter _)
  have hLm : ∀ v, v ∈ L ↔ v ∈ H.nodes ∧ Φ v = some b := by
    intro v; rw [hL.mem_iff, List.mem_filter, decide_eq_true_eq]
  have hSm : ∀ e, e ∈ S ↔ e ∈ H.edges ∧ H.toHG.keeps Φ b split e := by
    intro v; rw [hS.mem_iff, List.mem_filter, decide_eq_true_eq]
  have hpL : ∀ e ∈ S, ∀ v ∈ (H.pins e).filter (fun v => decide (Φ v = some b)), v ∈ L := by
    intro e he v hv
    rw [List.mem_filter, decide_eq_true_eq] at hv
    exact (hLm v).2 ⟨hw.pins_mem e ((hSm e).1 he).1 v hv.1, hv.2⟩
  have hevi : ∀ i, (hi : i < S.length) → ev i = ((H.pins S[i]).filter (fun v => decide (Φ v = some b))).map f := by
    intro i hi
    obtain ⟨h1, h2⟩ := exists_idxOf hSn hi
    have := hev _ h1
    rwa [h2] at this
  have hLlen : L.length ≤ H.n := by
    rw [hL.length_eq]
    refine le_trans (List.length_filter_le _ _) ?_
    have : H.nodes.length ≤ (List.range H.n).length := List.length_filter_le _ _
    simpa using this
  have hsum : ((List.range L.length).map nw).sum = H.toHG.blockWeight Φ b := by
    rw [sum_range_idxOf hLn nw H.hnWeight hnw]
    exact (hL.map H.hnWeight).sum_eq
  have hfinj : ∀ u ∈ L, ∀ v ∈ L, f u = f v → u = v := by
    intro u hu v hv h
    rw [hf u hu, hf v hv] at h
    exact idxOf_inj hu h
  obtain ⟨H', hc, hB⟩ := construct_built (ew := ew) (nw := nw) (arr0 := arr0) (nets0 := nets0) (stable := stable) hs
    (le_trans hLlen hsmall)
    (by
      intro i hi
      rw [hevi i hi]
      refine List.Nodup.map_on ?_ ((hw.pins_nodup _ ((hSm _).1 (List.getElem_mem hi)).1).filter _)
      intro u hu v hv h
      exact hfinj u (hpL _ (List.getElem_mem hi) u hu) v (hpL _ (List.getElem_mem hi) v hv) h)
    (by
      intro i hi h
      rw [hevi i hi, List.map_eq_nil_iff] at h
      have h2 := ((hSm _).1 (List.getElem_mem hi)).2.1
      have h3 : H.toHG.pinsIn Φ S[i] b = ((H.pins S[i]).filter (fun v => decide (Φ v = some b))).length := by
        unfold HG.pinsIn
        rw [List.countP_eq_length_filter]; rfl
      rw [h3, h] at h2
      simp at h2)
    (by
      intro i hi x hx
      rw [hevi i hi, List.mem_map] at hx
      obtain ⟨v, hv, rfl⟩ := hx
      have := hpL _ (List.getElem_mem hi) v hv
      rw [hf v this]
      exact List.idxOf_lt_length_iff.2 this)
    (by
      intro i hi
      obtain ⟨h1, h2⟩ := exists_idxOf hLn hi
      have := hnw _ h1
      rw [h2] at this
      rw [this]
      exact hpos _ ((hLm _).1 h1).1)
    (by
      rw [hsum]
      exact le_trans (sum_filter_le _ hpos).1 htot)
  refine ⟨H', hc, hB.hn, hB.hm, ?_⟩
  refine ⟨?_, hB.wf, hB.rep, by rw [hB.nodes, hB.hn], by rw [hB.edges, hB.hm], by rw [hB.total, hsum], by rw [hB.hm]; exact hB.maxSize⟩
  constructor
  · intro u hu v hv h
    exact hfinj u (hL.mem_iff.2 hu) v (hL.mem_iff.2 hv) h
  · intro x
    show x ∈ H'.nodes ↔ _
    rw [hB.nodes, List.mem_range]
    constructor
    · intro hx
      obtain ⟨h1, h2⟩ := exists_idxOf hLn hx
      exact ⟨_, hL.mem_iff.1 h1, by rw [hf _ h1, h2]⟩
    · rintro ⟨v, hv, rfl⟩
      have hv' : v ∈ L := hL.mem_iff.2 hv
      rw [hf v hv']
      exact List.idxOf_lt_length_iff.2 hv'
  · intro v hv
    have hv' : v ∈ L := hL.mem_iff.2 hv
    show H'.hnWeight (f v) = H.hnWeight v
    rw [hB.hnw, hf v hv', hnw v hv']
  · intro d hd e _ h
    exact idxOf_inj (hS.mem_iff.2 hd) h
  · intro y
    show y ∈ H'.edges ↔ _
    rw [hB.edges, List.mem_range]
    constructor
    · intro hy
      obtain ⟨h1, h2⟩ := exists_idxOf hSn hy
      exact ⟨_, hS.mem_iff.1 h1, h2⟩
    · rintro ⟨e, he, rfl⟩
      exact List.idxOf_lt_length_iff.2 (hS.mem_iff.2 he)
  · intro e he
    have he' : e ∈ S := hS.mem_iff.2 he
    show H'.heWeight _ = H.heWeight e
    rw [hB.hew, hew e he']
  · intro e he
    have he' : e ∈ S := hS.mem_iff.2 he
    show H'.pins _ = ((H.pins e).filter _).map f
    rw [hB.pins _ (List.idxOf_lt_length_iff.2 he'), hev e he']

end Extract
end Verif
