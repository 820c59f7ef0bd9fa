import Verif.Lemmas.FixedV
/-! Uncontractions. -/
namespace Verif
namespace NLevel
open FVS

/-- effect of an uncontraction -/
structure USpec (s s' : FVS) (u v : Nat) : Prop where
  cnt : ∀ x, (s'.data x).cnt = (s.data x).cnt - (if u = x ∧ 0 < (s.data v).cnt then 1 else 0)
  blk : ∀ x, (s'.data x).block = if (x = u ∧ 0 < (s.data v).cnt ∧ (s.data u).cnt = 1) ∨ (x = v ∧ (s.data v).cnt = 0)
    then none else (s.data x).block
  wt : ∀ x, (s'.data x).weight = (s.data x).weight
  bw : ∀ b, s'.bw b = s.bw b -
    (if (0 < (s.data v).cnt ∧ (s.data u).cnt = 1) ∧ (s.data u).block = some b then (s.data u).weight else 0) -
    (if (s.data v).cnt = 0 ∧ (s.data v).block = some b then (s.data v).weight else 0)
  total : s'.total = s.total -
    (if (0 < (s.data v).cnt ∧ (s.data u).cnt = 1) then (s.data u).weight else 0) -
    (if (s.data v).cnt = 0 ∧ (s.data v).block.isSome then (s.data v).weight else 0)

theorem uncontract_USpec {s : FVS} {u v : Nat} (huv : u ≠ v)
    (hv : 0 < (s.data v).cnt → (s.data v).block.isSome)
    (hu : 0 < (s.data v).cnt → 0 < (s.data u).cnt ∧ (s.data u).block.isSome) :
    USpec s (s.uncontract u v) u v := by
  unfold uncontract
  split
  · rename_i hb
    have hc : (s.data v).cnt = 0 := by
      rw [hb] at hv; simp at hv; exact hv
    refine ⟨fun x => by simp [hc], fun x => ?_, fun _ => rfl, fun b => by simp [hc, hb], by simp [hc, hb]⟩
    by_cases hx : x = v
    · subst hx; simp [hc, hb]
    · simp [hc, hx]
  · rename_i bv hb
    by_cases hc : 0 < (s.data v).cnt
    · obtain ⟨h1, h2⟩ := hu hc
      have hc0 : ¬ (s.data v).cnt = 0 := by omega
      rw [if_pos hc]
      simp only
      by_cases h3 : (s.data u).cnt = 1
      · rw [if_pos (by omega)]
        refine ⟨fun x => ?_, fun x => ?_, fun x => ?_, fun b => ?_, by simp [hc, hc0, h3]⟩
        · by_cases hx : x = u
          · subst hx; simp [setData, hc]
          · simp [setData, hx, Ne.symm hx]
        · by_cases hx : x = u
          · subst hx; simp [setData, hc, h3]
          · simp [setData, hx, hc0]
        · by_cases hx : x = u
          · subst hx; simp [setData]
          · simp [setData, hx]
        · simp only [hc, h3, hc0, true_and, false_and, if_false]
          cases hbu : (s.data u).block with
          | none => rw [hbu] at h2; simp at h2
          | some c =>
            simp only [addBw, Option.some.injEq]
            by_cases hbc : b = c
            · simp [hbc]; omega
            · simp [hbc, Ne.symm hbc]
      · rw [if_neg (by omega)]
        refine ⟨fun x => ?_, fun x => ?_, fun x => ?_, fun b => by simp [h3, hc0], by simp [h3, hc0]⟩
        · by_cases hx : x = u
          · subst hx; simp [setData, hc]
          · simp [setData, hx, Ne.symm hx]
        · by_cases hx : x = u
          · subst hx; simp [setData, h3, hc0]
          · simp [setData, hx, hc0]
        · by_cases hx : x = u
          · subst hx; simp [setData]
          · simp [setData, hx]
    · have hc0 : (s.data v).cnt = 0 := by omega
      rw [if_neg hc]
      refine ⟨fun x => ?_, fun x => ?_, fun x => ?_, fun b => ?_, by simp [hc0, hb]⟩
      · by_cases hx : x = v
        · subst hx; simp [setData, hc0]
        · simp [setData, hx, hc0]
      · by_cases hx : x = v
        · subst hx; simp [setData, hc0]
        · simp [setData, hx, hc0]
      · by_cases hx : x = v
        · subst hx; simp [setData]
        · simp [setData, hx]
      · simp only [addBw, hc0, hb, Option.some.injEq, true_and]
        by_cases hbc : b = bv
        · simp [hbc]; omega
        · simp [hbc, Ne.symm hbc]

variable {nodes : List Nat} {fixed : Nat → Option Nat} {w0 : Nat → Int}

theorem Inv.snd_nodup {s : NLevel} (h : Inv nodes fixed w0 s) : (s.tree.map Prod.snd).Nodup := by
  unfold List.Nodup
  rw [List.pairwise_map]
  exact h.order.imp (fun h => h.2)

theorem Inv.uncontract {s : NLevel} (h : Inv nodes fixed w0 s) (hw0 : ∀ x, 0 ≤ w0 x) (hnd : nodes.Nodup) {u v : Nat}
    (hm : (u, v) ∈ s.tree) (hu : s.enabled u = true) {f : FVS} (hc : USpec s.fv f u v) :
    Inv nodes fixed w0
      { nw := fun x => if x = u then s.nw u - s.nw v else s.nw x
        enabled := fun x => if x = v then true else s.enabled x
        tree := s.tree.erase (u, v)
        fv := f } := by
  obtain ⟨hun, hut⟩ := (h.en u).1 hu
  obtain ⟨_, hvn, huv⟩ := h.mem _ hm
  have huv : u ≠ v := huv
  have hvn : v ∈ nodes := hvn
  have hsub : (s.tree.erase (u, v)).Sublist s.tree := List.erase_sublist
  have hmem : ∀ e ∈ s.tree.erase (u, v), e ∈ s.tree := fun e he => hsub.subset he
  have hneu : ∀ e ∈ s.tree, u ≠ e.2 := fun e he hh => hut (List.mem_map.2 ⟨e, he, hh.symm⟩)
  have hsnd : ∀ x, x ∈ s.tree.map Prod.snd ↔ x = v ∨ x ∈ (s.tree.erase (u, v)).map Prod.snd := by
    intro x
    rw [((List.perm_cons_erase hm).map Prod.snd).mem_iff]; simp
  have hvt : v ∉ (s.tree.erase (u, v)).map Prod.snd := by
    have := ((List.perm_cons_erase hm).map Prod.snd).nodup_iff.1 h.snd_nodup
    simp only [List.map_cons, List.nodup_cons] at this
    exact this.1
  have hnev : ∀ e ∈ s.tree.erase (u, v), v ≠ e.2 := fun e he hh => hvt (List.mem_map.2 ⟨e, he, hh.symm⟩)
  -- counters of children in the remaining forest are unchanged
  have hcc : ∀ e ∈ s.tree.erase (u, v), (f.data e.2).cnt = (s.fv.data e.2).cnt := by
    intro e he
    rw [hc.cnt, if_neg (fun hh => hneu e (hmem e he) hh.1)]; omega
  have hfc : ∀ x, fc (s.tree.erase (u, v)) (fun y => (f.data y).cnt) x =
      fc (s.tree.erase (u, v)) (fun y => (s.fv.data y).cnt) x := by
    intro x; apply fc_congr; intro e he; rw [hcc e he]
  have hcnt : ∀ x, (f.data x).cnt = (if (fixed x).isSome then 1 else 0) + fc (s.tree.erase (u, v)) (fun y => (f.data y).cnt) x := by
    intro x
    have h1 := h.cnt x
    rw [fixedChildren_eq, fc_erase hm] at h1
    rw [hfc, hc.cnt, h1]
    omega
  have hsome : 0 < (s.fv.data v).cnt → 0 < (s.fv.data u).cnt ∧ (s.fv.data u).block.isSome := by
    intro hv
    have h1 := h.cnt u
    rw [fixedChildren_eq, fc_erase hm] at h1
    simp only [hv, and_self, if_true] at h1
    have : 0 < (s.fv.data u).cnt := by omega
    exact ⟨this, h.blk u this⟩
  refine ⟨?_, ?_, ?_, ?_, ?_, ?_, ?_, ?_, ?_, ?_, ?_, ?_, ?_, ?_⟩
  · intro x
    have h1 := h.en x
    rw [hsnd x] at h1
    by_cases hx : x = v
    · subst hx; simp [hvn]; simpa using hvt
    · simp only [hx, if_false]
      rw [h1]; simp [hx]
  · exact h.order.sublist hsub
  · exact fun e he => h.mem e (hmem e he)
  · intro x; exact hcnt x
  · intro x hx
    show (f.data x).block.isSome = true
    have hx : 0 < (f.data x).cnt := hx
    rw [hc.cnt] at hx
    rw [hc.blk, if_neg]
    · exact h.blk x (by omega)
    · rintro (⟨rfl, h1, h2⟩ | ⟨rfl, h1⟩)
      · rw [if_pos ⟨rfl, h1⟩, h2] at hx; omega
      · omega
  · intro x hx hb
    have hx : x ∉ (s.tree.erase (u, v)).map Prod.snd := hx
    have hb : (f.data x).block.isSome = true := hb
    show 0 < (f.data x).cnt
    rw [hc.blk] at hb
    rw [hc.cnt]
    split at hb
    · simp at hb
    · rename_i hno
      rw [not_or] at hno
      by_cases hxv : x = v
      · subst hxv
        have : ¬ (s.fv.data x).cnt = 0 := fun hh => hno.2 ⟨rfl, hh⟩
        rw [if_neg (fun hh => huv hh.1)]; omega
      · have h1 := h.alive x (by rw [hsnd]; simp only [hxv, false_or]; exact hx) hb
        by_cases hxu : u = x ∧ 0 < (s.fv.data v).cnt
        · rw [if_pos hxu]
          have : ¬ (s.fv.data u).cnt = 1 := fun hh => hno.1 ⟨hxu.1.symm, hxu.2, hh⟩
          rw [← hxu.1] at h1 ⊢
          omega
        · rw [if_neg hxu]; omega
  · intro x b hx
    obtain ⟨h1, h2⟩ := h.orig x b hx
    refine ⟨?_, by show (f.data x).weight = _; rw [hc.wt]; exact h2⟩
    show (f.data x).block = some b
    rw [hc.blk, if_neg]
    · exact h1
    · rintro (⟨rfl, h3, h4⟩ | ⟨rfl, h3⟩)
      · have h5 := hcnt x
        rw [hc.cnt, if_pos ⟨rfl, h3⟩, h4, hx] at h5
        simp at h5; omega
      · have h5 := h.cnt x
        rw [h3, hx] at h5
        simp at h5; omega
  · intro e he h0
    have h0 : 0 < (f.data e.2).cnt := h0
    show (f.data e.1).block = (f.data e.2).block
    have h0' : 0 < (s.fv.data e.2).cnt := by rw [← hcc e he]; exact h0
    have hb := h.edge e (hmem e he) h0'
    have hpos : 0 < (f.data e.1).cnt := by
      rw [hcnt e.1]
      have : 0 < fc (s.tree.erase (u, v)) (fun y => (f.data y).cnt) e.1 := fc_pos.2 ⟨e.2, he, h0⟩
      omega
    rw [hc.blk e.1, if_neg, hc.blk e.2, if_neg]
    · exact hb
    · rintro (⟨h1, _⟩ | ⟨h1, _⟩)
      · exact hneu e (hmem e he) h1.symm
      · exact hnev e he h1.symm
    · rintro (⟨h1, h2, h3⟩ | ⟨h1, h2⟩)
      · rw [hc.cnt, if_pos ⟨h1.symm, h2⟩, h1, h3] at hpos; omega
      · rw [hc.cnt, h1, h2] at hpos; omega
  · intro x hx
    show (f.data x).block = none
    rw [hc.blk]
    split
    · rfl
    · exact h.outside x hx
  · intro b
    have key := wsumL_two hnd hun hvn huv
      (f := fun x => if (s.fv.data x).block = some b then (s.fv.data x).weight else 0)
      (g := fun x => if (f.data x).block = some b then (f.data x).weight else 0)
      (by
        intro x h1 h2
        simp only [hc.blk x, hc.wt x, h1, h2, false_and, or_self, if_false])
    show f.bw b = _
    rw [key, hc.bw, h.bw b]
    simp only [hc.wt, hc.blk, huv, huv.symm, true_and, false_and, or_false, false_or]
    by_cases hv : 0 < (s.fv.data v).cnt
    · have hv0 : ¬ (s.fv.data v).cnt = 0 := by omega
      simp only [hv, hv0, true_and, false_and, if_false]
      by_cases h1 : (s.fv.data u).cnt = 1
      · simp only [h1, true_and, if_true]; simp; omega
      · simp only [h1, false_and, if_false]; omega
    · have hv0 : (s.fv.data v).cnt = 0 := by omega
      simp only [hv0, true_and, if_true]; simp; omega
  · have key := wsumL_two hnd hun hvn huv
      (f := fun x => if (s.fv.data x).block.isSome = true then (s.fv.data x).weight else 0)
      (g := fun x => if (f.data x).block.isSome = true then (f.data x).weight else 0)
      (by
        intro x h1 h2
        simp only [hc.blk x, hc.wt x, h1, h2, false_and, or_self, if_false])
    show f.total = _
    rw [key, hc.total, h.total]
    simp only [hc.wt, hc.blk, huv, huv.symm, true_and, false_and, or_false, false_or]
    by_cases hv : 0 < (s.fv.data v).cnt
    · have hv0 : ¬ (s.fv.data v).cnt = 0 := by omega
      have hs := (hsome hv).2
      simp only [hv, hv0, true_and, false_and, if_false]
      by_cases h1 : (s.fv.data u).cnt = 1
      · simp only [h1, if_true, hs]; simp; omega
      · simp only [h1, if_false]; omega
    · have hv0 : (s.fv.data v).cnt = 0 := by omega
      simp only [hv0, true_and, if_true]; simp; omega
  · intro x hb
    have hb : (f.data x).block.isSome = true := hb
    show 0 ≤ (f.data x).weight
    rw [hc.wt]
    apply h.stored
    rw [hc.blk] at hb
    split at hb
    · simp at hb
    · exact hb
  · intro x
    have h1 : (s.tree.erase (u, v)).map (fun e => if e.1 = x then (if e.2 = u then s.nw u - s.nw v else s.nw e.2) else 0) =
        (s.tree.erase (u, v)).map (fun e => if e.1 = x then s.nw e.2 else 0) := by
      apply List.map_congr_left
      intro e he
      simp [(hneu e (hmem e he)).symm]
    show (if x = u then s.nw u - s.nw v else s.nw x) = _ + _
    rw [h1]
    have hx := h.nwEq x
    rw [((List.perm_cons_erase hm).map _).sum_eq, List.map_cons, List.sum_cons] at hx
    by_cases hxu : x = u
    · subst hxu; simp at hx ⊢; omega
    · simp only [hxu, Ne.symm hxu, if_false] at hx ⊢; omega
  · intro x
    show 0 ≤ if x = u then s.nw u - s.nw v else s.nw x
    by_cases hxu : x = u
    · rw [if_pos hxu]
      have hx := h.nwEq u
      rw [((List.perm_cons_erase hm).map _).sum_eq, List.map_cons, List.sum_cons] at hx
      have h0 : 0 ≤ (((s.tree.erase (u, v)).map (fun e => if e.1 = u then s.nw e.2 else 0))).sum := by
        generalize (s.tree.erase (u, v)) = l
        induction l with
        | nil => simp
        | cons e l ih =>
          rw [List.map_cons, List.sum_cons]
          have := h.nwPos e.2
          split <;> omega
      simp only [if_true] at hx
      have hw : 0 ≤ w0 u := hw0 u
      omega
    · rw [if_neg hxu]; exact h.nwPos x

end NLevel
end Verif
