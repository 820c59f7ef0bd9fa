import Verif.Lemmas.FNet7
/-! The entries computed from the collected pins. -/
namespace Verif
namespace FNet
open DFlow (set set_same set_other set_apply)

variable {c : NCfg} {r : Region}

theorem seg_eq (h : NOK c r) {pins : List TmpPin} (hp : pins.Perm (largePins c r)) {i : Nat} (hi : i < r.hes.length) :
    (pins.filter (fun t => decide (t.e = i))).insertionSort pinLe = segT c r i := by
  have hperm : (pins.filter (fun t => decide (t.e = i))).Perm (segT c r i) := by
    rw [← largePins_filter h hi]; exact hp.filter _
  refine List.Perm.eq_of_pairwise (le := pinLe) ?_ (List.pairwise_insertionSort _ _) (segT_sorted i) ((List.perm_insertionSort _ _).trans hperm)
  intro a b ha hb hab hba
  rw [List.mem_insertionSort] at ha
  have ha := (largePins_mem h (hp.mem_iff.1 (List.mem_filter.1 ha).1)).2
  have hb := (largePins_mem h (hp.mem_iff.1 (List.mem_filter.1 (hperm.mem_iff.2 hb)).1)).2
  unfold pinLe at hab hba
  have e1 : a.e = b.e := by omega
  have e2 : a.pin = b.pin := by omega
  rw [e2, ← hb] at ha
  cases a; cases b; simp_all

theorem entryLarge_eq (h : NOK c r) {pins : List TmpPin} (hpp : pins.Perm (largePins c r)) {i : Nat} (hi : i < r.hes.length) :
    entryLarge c r pins i = entryDefault c r (r.hes.getD i 0) := by
  unfold entryLarge
  dsimp only
  rw [seg_eq h hpp hi]
  have hp := segT_pin (c := c) (r := r) i
  have hc0 : (segT c r i).countP (fun t => decide (t.blk = c.b0)) = r.n0.countP (fun v => decide (r.hes.getD i 0 ∈ c.H.inc v)) := by
    unfold segT
    rw [List.countP_append, List.countP_map, List.countP_map, ← inSeg_length r.n0 1]
    simp only [Function.comp_def, h.ne.symm, decide_false, decide_true, List.countP_true, List.countP_false, Function.const, Nat.add_zero]
  have hc1 : (segT c r i).countP (fun t => decide (t.blk = c.b1)) = r.n1.countP (fun v => decide (r.hes.getD i 0 ∈ c.H.inc v)) := by
    unfold segT
    rw [List.countP_append, List.countP_map, List.countP_map, ← inSeg_length r.n1 (sinkOf r + 1)]
    simp only [Function.comp_def, h.ne, decide_false, decide_true, List.countP_true, List.countP_false, Function.const, Nat.zero_add]
  rw [hc0, hc1, hp]
  have he : r.hes.getD i 0 ∈ r.hes := by
    rw [List.getD_eq_getElem?_getD, List.getElem?_eq_getElem hi]; simp
  generalize r.hes.getD i 0 = e at *
  have hE := (h.edge he).1
  obtain ⟨hn0, hn1, hdisj⟩ := List.nodup_append.1 h.nodup
  have hcs := count_lt (r := r) (b := c.b0) h hE hn0 (fun v hv => ⟨h.mem v (List.mem_append_left _ hv), h.m0 v hv⟩)
    (fun v _ hb => by
      rw [nodeMap_none h.nodup, List.mem_append, not_or]
      exact ⟨fun hh => ⟨hh, fun h1 => h.ne (by rw [h.m1 v h1] at hb; exact (Option.some.inj hb).symm)⟩, fun hh => hh.1⟩)
  have hct := count_lt (r := r) (b := c.b1) h hE hn1 (fun v hv => ⟨h.mem v (List.mem_append_right _ hv), h.m1 v hv⟩)
    (fun v _ hb => by
      rw [nodeMap_none h.nodup, List.mem_append, not_or]
      exact ⟨fun hh => ⟨fun h1 => h.ne (by rw [h.m0 v h1] at hb; exact (Option.some.inj hb)), hh⟩, fun hh => hh.2⟩)
  unfold entryDefault
  dsimp only
  by_cases h0 : capacity c e = 0
  · rw [if_pos h0, if_pos h0]
  rw [if_neg h0, if_neg h0]
  have hpe := segPins_eq h he
  have hnz : ∀ u ∈ (c.H.pins e).filterMap (nodeMap r), u ≠ 0 ∧ u ≠ sinkOf r := by
    intro u hu
    obtain ⟨v, _, hv⟩ := List.mem_filterMap.1 hu
    exact nodeMap_ne h.nodup hv
  obtain ⟨_, v, hv, u, hu⟩ := h.edge he
  have hreg : u ∈ (c.H.pins e).filterMap (nodeMap r) := List.mem_filterMap.2 ⟨v, hv, hu⟩
  have e0 : decide (r.n0.countP (fun v => decide (e ∈ c.H.inc v)) < c.H.pinsIn c.Φ e c.b0) =
      (c.H.pins e).any (fun v => (nodeMap r v).isNone && decide (c.Φ v = some c.b0)) := by
    rw [Bool.eq_iff_iff, decide_eq_true_eq]; exact hcs
  have e1 : decide (r.n1.countP (fun v => decide (e ∈ c.H.inc v)) < c.H.pinsIn c.Φ e c.b1) =
      (c.H.pins e).any (fun v => (nodeMap r v).isNone && decide (c.Φ v = some c.b1)) := by
    rw [Bool.eq_iff_iff, decide_eq_true_eq]; exact hct
  rw [e0, e1, ← hpe]
  clear hcs hct e0 e1 hc0 hc1 hp hpe
  generalize (c.H.pins e).any (fun v => (nodeMap r v).isNone && decide (c.Φ v = some c.b0)) = cs
  generalize (c.H.pins e).any (fun v => (nodeMap r v).isNone && decide (c.Φ v = some c.b1)) = ct
  generalize (c.H.pins e).filterMap (nodeMap r) = pins at *
  by_cases hcc : (cs && ct) = true
  · rw [if_pos hcc, if_pos hcc]
  · rw [if_neg hcc, if_neg hcc]
    have hemp : ¬ pins.isEmpty = true := by cases pins with
      | nil => simp at hreg
      | cons => simp
    rw [if_neg hemp]
    have hL : (if cs = true then [0] else if ct = true then [sinkOf r] else []) ++ pins.insertionSort (· ≤ ·) =
        sortPins (sinkOf r) (if cs = true then pushFront pins 0 else if ct = true then pushFront pins (sinkOf r) else pins) := by
      have hfront : ∀ x, (x = 0 ∨ x = sinkOf r) → [x] ++ pins.insertionSort (· ≤ ·) = sortPins (sinkOf r) (pushFront pins x) := by
        intro x hx
        cases pins with
        | nil => simp [pushFront, sortPins, hx]
        | cons a l =>
          simp only [pushFront, sortPins, if_pos hx, List.singleton_append, List.cons.injEq, true_and]
          exact sort_perm' (List.perm_append_comm (l₁ := [a]) (l₂ := l))
      cases cs with
      | true => exact hfront 0 (Or.inl rfl)
      | false =>
        cases ct with
        | true => exact hfront _ (Or.inr rfl)
        | false =>
          simp only [Bool.false_eq_true, if_false, List.nil_append]
          cases pins with
          | nil => rfl
          | cons a l =>
            have := hnz a List.mem_cons_self
            simp only [sortPins, this.1, this.2, or_self, if_false]
    rw [hL]
    generalize (if cs = true then pushFront pins 0 else if ct = true then pushFront pins (sinkOf r) else pins) = q
    rw [(sortPins_perm (sinkOf r) q).length_eq]

theorem entriesLarge_eq (h : NOK c r) {pins : List TmpPin} (hpp : pins.Perm (largePins c r)) :
    (List.range r.hes.length).map (entryLarge c r pins) = entries c r := by
  unfold entries
  apply List.ext_getElem
  · simp
  · intro n h1 h2
    simp only [List.length_map, List.length_range] at h1
    rw [List.getElem_map, List.getElem_map, List.getElem_range, entryLarge_eq h hpp h1]
    congr 1
    rw [List.getD_eq_getElem?_getD, List.getElem?_eq_getElem h1]; rfl

end FNet
end Verif
