import Verif.Lemmas.FNet4
/-! The construction for large hyperedges builds the same network, part 2. -/
namespace Verif
namespace FNet
open DFlow (set set_same set_other set_apply)

variable {c : NCfg} {r : Region}

theorem sort_perm' {l l' : List Nat} (h : l.Perm l') : l.insertionSort (· ≤ ·) = l'.insertionSort (· ≤ ·) :=
  List.Perm.eq_of_pairwise' (List.pairwise_insertionSort _ _) (List.pairwise_insertionSort _ _)
    ((List.perm_insertionSort _ _).trans (h.trans (List.perm_insertionSort _ _).symm))

theorem segPins_perm (h : NOK c r) {e : Nat} (he : e ∈ r.hes) :
    (inSeg c.H e r.n0 1 ++ inSeg c.H e r.n1 (sinkOf r + 1)).Perm ((c.H.pins e).filterMap (nodeMap r)) := by
  have hE := (h.edge he).1
  apply (List.perm_ext_iff_of_nodup ?_ ?_).2
  · intro u
    rw [List.mem_append, mem_inSeg, mem_inSeg, List.mem_filterMap]
    constructor
    · rintro (⟨j, v, h1, h2, h3⟩ | ⟨j, v, h1, h2, h3⟩)
      · have hv : v ∈ r.n0 ++ r.n1 := List.mem_append_left _ (List.mem_of_getElem? h1)
        refine ⟨v, ((h.wf.inc_iff v (h.mem v hv) e).1 h3).2, (nodeMap_iff h.nodup v u).2 ?_⟩
        have := (List.getElem?_eq_some_iff.1 h1).1
        unfold nodesOf
        rw [h2, Nat.add_comm 1 j, List.cons_append, List.getElem?_cons_succ, List.getElem?_append_left (by simpa using this)]
        simp [h1]
      · have hv : v ∈ r.n0 ++ r.n1 := List.mem_append_right _ (List.mem_of_getElem? h1)
        refine ⟨v, ((h.wf.inc_iff v (h.mem v hv) e).1 h3).2, (nodeMap_iff h.nodup v u).2 ?_⟩
        unfold nodesOf sinkOf at *
        rw [h2, show r.n0.length + 1 + 1 + j = (r.n0.length + (j + 1)) + 1 by omega, List.cons_append, List.getElem?_cons_succ,
          List.getElem?_append_right (by simp)]
        simp [h1]
    · rintro ⟨v, hv, hu⟩
      have hvn : v ∈ r.n0 ++ r.n1 := by
        by_contra hh
        rw [(nodeMap_none h.nodup v).2 hh] at hu; cases hu
      have hinc := (h.wf.inc_iff v (h.mem v hvn) e).2 ⟨hE, hv⟩
      have hu' := (nodeMap_iff h.nodup v u).1 hu
      unfold nodesOf at hu'
      cases u with
      | zero => simp at hu'
      | succ u =>
        rw [List.cons_append, List.getElem?_cons_succ] at hu'
        by_cases hl : u < r.n0.length
        · rw [List.getElem?_append_left (by simpa using hl)] at hu'
          simp only [List.getElem?_map, Option.map_eq_some_iff] at hu'
          obtain ⟨a, ha, hav⟩ := hu'
          exact Or.inl ⟨u, v, by rw [ha]; exact hav, by omega, hinc⟩
        · rw [List.getElem?_append_right (by simpa using hl)] at hu'
          rw [List.length_map] at hu'
          cases hk : u - r.n0.length with
          | zero => rw [hk] at hu'; simp at hu'
          | succ k =>
            rw [hk, List.getElem?_cons_succ] at hu'
            simp only [List.getElem?_map, Option.map_eq_some_iff] at hu'
            obtain ⟨a, ha, hav⟩ := hu'
            exact Or.inr ⟨k, v, by rw [ha]; exact hav, by unfold sinkOf; omega, hinc⟩
  · exact (segPins_sorted c.H e r).imp (fun hab => Nat.ne_of_lt hab)
  · refine List.Nodup.filterMap ?_ (h.wf.pins_nodup e hE)
    intro v v' u hu hu'
    exact nodeMap_inj h.nodup hu hu'

/-- the sorted pins are the pins of the default construction -/
theorem segPins_eq (h : NOK c r) {e : Nat} (he : e ∈ r.hes) :
    ((c.H.pins e).filterMap (nodeMap r)).insertionSort (· ≤ ·) = inSeg c.H e r.n0 1 ++ inSeg c.H e r.n1 (sinkOf r + 1) :=
  List.Perm.eq_of_pairwise' (List.pairwise_insertionSort _ _) ((segPins_sorted c.H e r).imp Nat.le_of_lt)
    ((List.perm_insertionSort _ _).trans (segPins_perm h he).symm)

theorem count_lt (h : NOK c r) {e b : Nat} {n : List Nat} (he : e ∈ c.H.edges) (hn : n.Nodup) (hm : ∀ v ∈ n, v ∈ c.H.nodes ∧ c.Φ v = some b)
    (hout : ∀ v ∈ c.H.nodes, c.Φ v = some b → (v ∉ n ↔ nodeMap r v = none)) :
    n.countP (fun v => decide (e ∈ c.H.inc v)) < c.H.pinsIn c.Φ e b ↔
    (c.H.pins e).any (fun v => (nodeMap r v).isNone && decide (c.Φ v = some b)) = true := by
  have h1 : n.countP (fun v => decide (e ∈ c.H.inc v)) = (c.H.pins e).countP (fun v => decide (v ∈ n)) := by
    rw [List.countP_eq_length_filter, List.countP_eq_length_filter]
    apply List.Perm.length_eq
    apply (List.perm_ext_iff_of_nodup (hn.filter _) ((h.wf.pins_nodup e he).filter _)).2
    intro v
    simp only [List.mem_filter, decide_eq_true_eq]
    constructor
    · rintro ⟨a, b⟩; exact ⟨((h.wf.inc_iff v (hm v a).1 e).1 b).2, a⟩
    · rintro ⟨a, b⟩; exact ⟨b, (h.wf.inc_iff v (hm v b).1 e).2 ⟨he, a⟩⟩
  have h2 : c.H.pinsIn c.Φ e b = (c.H.pins e).countP (fun v => decide (v ∈ n)) + (c.H.pins e).countP (fun v => (nodeMap r v).isNone && decide (c.Φ v = some b)) := by
    unfold HG.pinsIn
    have : ∀ l : List Nat, (∀ v ∈ l, v ∈ c.H.nodes) → l.countP (fun v => decide (c.Φ v = some b)) =
        l.countP (fun v => decide (v ∈ n)) + l.countP (fun v => (nodeMap r v).isNone && decide (c.Φ v = some b)) := by
      intro l
      induction l with
      | nil => intro _; rfl
      | cons a l ih =>
        intro hl
        rw [List.countP_cons, List.countP_cons, List.countP_cons, ih (fun v hv => hl v (List.mem_cons_of_mem _ hv))]
        have ha := hl a List.mem_cons_self
        by_cases hb : c.Φ a = some b
        · have := hout a ha hb
          by_cases hmem : a ∈ n
          · have : ¬ nodeMap r a = none := fun hh => (this.2 hh) hmem
            cases hna : nodeMap r a with
            | none => exact absurd hna this
            | some _ => simp [hb, hmem]; omega
          · simp [hb, hmem, this.1 hmem]; omega
        · have : a ∉ n := fun hh => hb (hm a hh).2
          simp [hb, this]
    exact this _ (h.wf.pins_mem e he)
  rw [h1, h2, List.any_eq_true, ← List.countP_pos_iff]
  omega

theorem addSeg_spec (h : NOK c r) (hw : ∀ e, 0 ≤ capacity c e) {s : SSt} {M : Nets} (hs : SInv c s M) {i : Nat} (hi : i < r.hes.length) :
    SInv c (addSeg c r s i) (mergeOpt M (entryDefault c r (r.hes.getD i 0)).net) ∧
    (addSeg c r s i).total = s.total + (entryDefault c r (r.hes.getD i 0)).total ∧
    (addSeg c r s i).nonrem = s.nonrem + (entryDefault c r (r.hes.getD i 0)).nonrem := by
  unfold addSeg addHyperedge
  have hp := segT_pin (c := c) (r := r) i
  have hc0 : (segT c r i).countP (fun t => decide (t.blk = c.b0)) = r.n0.countP (fun v => decide (r.hes.getD i 0 ∈ c.H.inc v)) := by
    unfold segT
    rw [List.countP_append, List.countP_map, List.countP_map, ← inSeg_length r.n0 1]
    simp only [Function.comp_def, h.ne.symm, decide_false, decide_true, List.countP_true, List.countP_false, Function.const, Nat.add_zero]
  have hc1 : (segT c r i).countP (fun t => decide (t.blk = c.b1)) = r.n1.countP (fun v => decide (r.hes.getD i 0 ∈ c.H.inc v)) := by
    unfold segT
    rw [List.countP_append, List.countP_map, List.countP_map, ← inSeg_length r.n1 (sinkOf r + 1)]
    simp only [Function.comp_def, h.ne, decide_false, decide_true, List.countP_true, List.countP_false, Function.const, Nat.zero_add]
  rw [hc0, hc1, hp]
  have he : r.hes.getD i 0 ∈ r.hes := by
    rw [List.getD_eq_getElem?_getD, List.getElem?_eq_getElem hi]; simp
  generalize r.hes.getD i 0 = e at *
  have hE := (h.edge he).1
  obtain ⟨hn0, hn1, hdisj⟩ := List.nodup_append.1 h.nodup
  have hcs := count_lt (r := r) (b := c.b0) h hE hn0 (fun v hv => ⟨h.mem v (List.mem_append_left _ hv), h.m0 v hv⟩)
    (fun v _ hb => by
      rw [nodeMap_none h.nodup, List.mem_append, not_or]
      exact ⟨fun hh => ⟨hh, fun h1 => h.ne (by rw [h.m1 v h1] at hb; exact (Option.some.inj hb).symm)⟩, fun hh => hh.1⟩)
  have hct := count_lt (r := r) (b := c.b1) h hE hn1 (fun v hv => ⟨h.mem v (List.mem_append_right _ hv), h.m1 v hv⟩)
    (fun v _ hb => by
      rw [nodeMap_none h.nodup, List.mem_append, not_or]
      exact ⟨fun hh => ⟨fun h1 => h.ne (by rw [h.m0 v h1] at hb; exact (Option.some.inj hb)), hh⟩, fun hh => hh.2⟩)
  unfold entryDefault
  dsimp only
  by_cases h0 : capacity c e = 0
  · rw [if_neg (by omega), if_pos h0]; exact ⟨hs, by simp, by simp⟩
  have hwe := hw e
  rw [if_pos (by omega), if_neg h0]
  have hpe := segPins_eq h he
  have hnz : ∀ u ∈ (c.H.pins e).filterMap (nodeMap r), u ≠ 0 ∧ u ≠ sinkOf r := by
    intro u hu
    obtain ⟨v, _, hv⟩ := List.mem_filterMap.1 hu
    exact nodeMap_ne h.nodup hv
  obtain ⟨_, v, hv, u, hu⟩ := h.edge he
  have hreg : u ∈ (c.H.pins e).filterMap (nodeMap r) := List.mem_filterMap.2 ⟨v, hv, hu⟩
  have e0 : decide (r.n0.countP (fun v => decide (e ∈ c.H.inc v)) < c.H.pinsIn c.Φ e c.b0) =
      (c.H.pins e).any (fun v => (nodeMap r v).isNone && decide (c.Φ v = some c.b0)) := by
    rw [Bool.eq_iff_iff, decide_eq_true_eq]; exact hcs
  have e1 : decide (r.n1.countP (fun v => decide (e ∈ c.H.inc v)) < c.H.pinsIn c.Φ e c.b1) =
      (c.H.pins e).any (fun v => (nodeMap r v).isNone && decide (c.Φ v = some c.b1)) := by
    rw [Bool.eq_iff_iff, decide_eq_true_eq]; exact hct
  rw [e0, e1, ← hpe]
  clear hcs hct e0 e1 hc0 hc1 hp hpe
  generalize (c.H.pins e).any (fun v => (nodeMap r v).isNone && decide (c.Φ v = some c.b0)) = cs
  generalize (c.H.pins e).any (fun v => (nodeMap r v).isNone && decide (c.Φ v = some c.b1)) = ct
  generalize (c.H.pins e).filterMap (nodeMap r) = pins at *
  set s0 : SSt := (if 0 < c.H.pinsIn c.Φ e c.b0 ∧ 0 < c.H.pinsIn c.Φ e c.b1 then { s with total := s.total + capacity c e } else s) with hs0
  have hh : s0.hg = s.hg := by rw [hs0]; split <;> rfl
  have ht : s0.total = s.total + (if 0 < c.H.pinsIn c.Φ e c.b0 ∧ 0 < c.H.pinsIn c.Φ e c.b1 then capacity c e else 0) := by
    rw [hs0]
    by_cases hb : 0 < c.H.pinsIn c.Φ e c.b0 ∧ 0 < c.H.pinsIn c.Φ e c.b1
    · rw [if_pos hb, if_pos hb]
    · rw [if_neg hb, if_neg hb]; simp
  have hnr : s0.nonrem = s.nonrem := by rw [hs0]; split <;> rfl
  have hI0 : SInv c s0 M := by
    rw [hs0]
    by_cases hb : 0 < c.H.pinsIn c.Φ e c.b0 ∧ 0 < c.H.pinsIn c.Φ e c.b1
    · rw [if_pos hb]; exact ⟨hs.1, hs.2, hs.3, hs.4, hs.5⟩
    · rw [if_neg hb]; exact hs
  clear_value s0
  obtain ⟨hI, hE', hC'⟩ := hI0.start (capacity c e)
  by_cases hcc : (cs && ct) = true
  · rw [if_pos hcc, if_pos hcc]
    refine ⟨⟨by simp [Builder.removeCurrent], ?_, hI.he, hI.nodup, hI.bk⟩, ht, by simp [hnr]⟩
    show (Builder.finish (Builder.removeCurrent (s0.hg.start (capacity c e)))).edges = M
    simp [Builder.removeCurrent, Builder.finish, hE']
  · rw [if_neg hcc, if_neg hcc]
    have hemp : ¬ pins.isEmpty = true := by cases pins with
      | nil => simp at hreg
      | cons => simp
    rw [if_neg hemp]
    have hL : (if cs = true then [0] else if ct = true then [sinkOf r] else []) ++ pins.insertionSort (· ≤ ·) =
        sortPins (sinkOf r) (if cs = true then pushFront pins 0 else if ct = true then pushFront pins (sinkOf r) else pins) := by
      have hfront : ∀ x, (x = 0 ∨ x = sinkOf r) → [x] ++ pins.insertionSort (· ≤ ·) = sortPins (sinkOf r) (pushFront pins x) := by
        intro x hx
        cases pins with
        | nil => simp [pushFront, sortPins, hx]
        | cons a l =>
          simp only [pushFront, sortPins, if_pos hx, List.singleton_append, List.cons.injEq, true_and]
          exact sort_perm' (List.perm_append_comm (l₁ := [a]) (l₂ := l))
      cases cs with
      | true => exact hfront 0 (Or.inl rfl)
      | false =>
        cases ct with
        | true => exact hfront _ (Or.inr rfl)
        | false =>
          simp only [Bool.false_eq_true, if_false, List.nil_append]
          cases pins with
          | nil => rfl
          | cons a l =>
            have := hnz a List.mem_cons_self
            simp only [sortPins, this.1, this.2, or_self, if_false]
    rw [hL]
    generalize (if cs = true then pushFront pins 0 else if ct = true then pushFront pins (sinkOf r) else pins) = q
    have := emit_spec hI hE' hC' (cap := capacity c e) rfl (pins := sortPins (sinkOf r) q)
    rw [(sortPins_perm (sinkOf r) q).length_eq] at this
    by_cases hl : q.length > 1
    · rw [if_pos hl] at this ⊢
      exact ⟨this.1, this.2.1.trans ht, this.2.2.trans (by simp [hnr])⟩
    · rw [if_neg hl] at this ⊢
      exact ⟨this.1, this.2.1.trans ht, this.2.2.trans (by simp [hnr])⟩

theorem addSegFold (h : NOK c r) (hw : ∀ e, 0 ≤ capacity c e) (m : Nat) : m ≤ r.hes.length →
    SInv c ((List.range m).foldl (addSeg c r) SSt.empty) (mergeAll ((r.hes.take m).map (entryDefault c r))) ∧
    ((List.range m).foldl (addSeg c r) SSt.empty).total = (((r.hes.take m).map (entryDefault c r)).map Entry.total).sum ∧
    ((List.range m).foldl (addSeg c r) SSt.empty).nonrem = (((r.hes.take m).map (entryDefault c r)).map Entry.nonrem).sum := by
  induction m with
  | zero => intro _; exact ⟨SInv.init c, by simp [SSt.empty], by simp [SSt.empty]⟩
  | succ m ih =>
    intro hm
    obtain ⟨h1, h2, h3⟩ := ih (by omega)
    obtain ⟨i1, i2, i3⟩ := addSeg_spec h hw h1 (i := m) (by omega)
    have hg : r.hes.getD m 0 = r.hes[m] := by rw [List.getD_eq_getElem?_getD, List.getElem?_eq_getElem (by omega)]; rfl
    rw [hg] at i1 i2 i3
    rw [List.range_succ, List.foldl_append, List.foldl_cons, List.foldl_nil, List.take_succ_eq_append_getElem (by omega), List.map_append]
    refine ⟨?_, ?_, ?_⟩
    · unfold mergeAll at *
      rw [List.foldl_append]; exact i1
    · rw [i2, h2]; simp
    · rw [i3, h3]; simp

theorem capacity_nonneg {c : NCfg} (hw : ∀ e, 0 ≤ c.H.ew e) (e : Nat) : 0 ≤ capacity c e := by
  unfold capacity
  have := hw e
  cases c.o with
  | km1 => exact this
  | cut => simp only []; split <;> omega
  | soed => simp only []; split <;> omega

theorem constructLarge_eq (h : NOK c r) (hw : ∀ e, 0 ≤ c.H.ew e) :
    (constructLarge c r).hg.finish.edges = mergeAll (entries c r) ∧ (constructLarge c r).total = ((entries c r).map Entry.total).sum ∧
    (constructLarge c r).nonrem = ((entries c r).map Entry.nonrem).sum := by
  rw [constructLarge_fold h]
  obtain ⟨h1, h2, h3⟩ := addSegFold h (capacity_nonneg hw) r.hes.length (Nat.le_refl _)
  rw [List.take_length] at h1 h2 h3
  exact ⟨h1.fin, h2, h3⟩

end FNet
end Verif
