import Verif.Lemmas.Jet1
import Verif.Props.C63
import Verif.Props.C20
/-!
# Lemmas on the deterministic Jet refiner: proposals and moves of one iteration
-/
namespace Verif
namespace Jet
open DetLP (Mv Good Fit moveAll)
open GainComp CSt PHG
open DReb (Env Input Reached CleanAll good_sim good_assigned)
open SMap (wr)

variable {c : Cfg} {σ : Type} {C : ConInfo σ} {m mx : Nat}

/-- A node that may be moved: a border node of bounded degree that is neither locked nor fixed. -/
def Free (c : Cfg) (locks : Nat → Bool) (Φ : Assign) (v : Nat) : Prop :=
  v ∈ c.H.nodes ∧ (c.H.inc v).length ≤ 100000 ∧ (∃ e ∈ c.H.edges, v ∈ c.H.pins e ∧ 1 < c.H.lam Φ e) ∧ locks v = false ∧ c.fixed v = false

theorem blk_some {L : C.Lawful m c.k mx} {s : CSt σ} (hG : Good L c.H s) {u : Nat} (hu : u ∈ c.H.nodes) : s.part u = some (blk s u) ∧ blk s u < c.k := by
  obtain ⟨b, h1, h2⟩ := hG.inv.assigned u hu
  unfold blk
  rw [h2]
  exact ⟨rfl, h1⟩

theorem border_iff {L : C.Lawful m c.k mx} (hw : c.H.WF) (hf : c.H.Fits m mx) {s : CSt σ} (hG : Good L c.H s) {u : Nat} (hu : u ∈ c.H.nodes) :
    PHG.isBorderNode C c.H ⟨s.part, s.wt, s.con⟩ u = true ↔ (c.H.inc u).length ≤ 100000 ∧ ∃ e ∈ c.H.edges, u ∈ c.H.pins e ∧ 1 < c.H.lam s.part e := by
  have hS := good_sim hw hG
  unfold PHG.isBorderNode
  by_cases h : (c.H.inc u).length ≤ 100000
  · rw [if_pos h, List.any_eq_true]
    constructor
    · rintro ⟨e, he, h1⟩
      obtain ⟨h2, h3⟩ := (hw.inc_iff u hu e).1 he
      refine ⟨h, e, h2, h3, ?_⟩
      rw [decide_eq_true_iff] at h1
      rw [← (edgeOk hf hS h2).conn]; exact h1
    · rintro ⟨_, e, h2, h3, h4⟩
      refine ⟨e, (hw.inc_iff u hu e).2 ⟨h2, h3⟩, ?_⟩
      rw [decide_eq_true_iff]
      have := (edgeOk hf hS h2).conn
      dsimp only at this ⊢
      rw [this]; exact h4
  · rw [if_neg h]
    exact ⟨fun hh => (by cases hh), fun hh => absurd hh.1 h⟩

/-- `_gains_and_target` of a node -/
structure ProposeSpec (c : Cfg) (d : Nat) (locks : Nat → Bool) (Φ : Assign) (u a : Nat) (r : Int × Nat) : Prop where
  lt : r.2 < c.k
  stay : r.2 = a → r.1 = 0
  move : r.2 ≠ a → Free c locks Φ u ∧ r.1 = change c.H c.o Φ u r.2 ∧ (∀ b < c.k, b ≠ a → r.1 ≤ change c.H c.o Φ u b) ∧ (r.1 ≤ 0 ∨ ∃ iso, c.neg d r.1 iso = true)
  improving : Free c locks Φ u → (∃ b < c.k, b ≠ a ∧ change c.H c.o Φ u b < 0) → r.2 ≠ a

theorem propose_spec {L : C.Lawful m c.k mx} (E : Env c.toCfg m mx) {s : CSt σ} (hG : Good L c.H s) {d : Nat} {locks : Nat → Bool} {ρ : Rand} (hρ : ρ.Ok)
    {scr : Scratch} (hs : scr.tmp.size = 0 ∧ scr.iso = 0) {u : Nat} (hu : u ∈ c.H.nodes) :
    ProposeSpec c d locks s.part u (blk s u) (propose C c d s locks ρ scr u) := by
  obtain ⟨hp, ha⟩ := blk_some hG hu
  have hS := good_sim E.wf hG
  have hb := border_iff E.wf E.fits hG hu
  unfold propose
  by_cases hc : PHG.isBorderNode C c.H ⟨s.part, s.wt, s.con⟩ u = false ∨ locks u = true ∨ c.fixed u = true
  · rw [if_pos hc]
    refine ⟨ha, fun _ => rfl, fun h => absurd rfl h, fun hf => ?_⟩
    obtain ⟨_, h1, h2, h3, h4⟩ := hf
    rcases hc with hc | hc | hc
    · rw [hb.2 ⟨h1, h2⟩] at hc; cases hc
    · rw [h3] at hc; cases hc
    · rw [h4] at hc; cases hc
  · rw [if_neg hc]
    push Not at hc
    obtain ⟨hc1, hc2, hc3⟩ := hc
    have hfree : Free c locks s.part u := by
      have := hb.1 (by simpa using hc1)
      exact ⟨hu, this.1, this.2, by simpa using hc2, by simpa using hc3⟩
    obtain ⟨mp, i1, i2, i3, i4⟩ := precompute_spec c.o E.wf E.fits hS hu hp (good_assigned hG) hs.1 hs.2
    have key := maxMove_spec (a := args c) (ρ := ρ) (feas := fun b => decide (s.wt b + c.H.nw u ≤ c.maxw b)) (gain := fun x iso => iso - x)
      i1 (src := blk s u) (Γ := change c.H c.o s.part u)
      (fun b x hb hne => by have := (i4 b (i2.lt b x hb) hne).1; rw [hb] at this; exact this)
      (fun b x hb => i2.lt b x hb)
      (fun hna b hb hne hm => by cases hna) hρ
    dsimp only at key ⊢
    set M := maxMove (args c) ρ (fun b => decide (s.wt b + c.H.nw u ≤ c.maxw b)) (fun x iso => iso - x) (precompute c.o C c.H s.con (blk s u) u scr) (blk s u) with hM
    have hadm : ∀ b, Adm (args c) (fun b => decide (s.wt b + c.H.nw u ≤ c.maxw b)) b := fun b => Or.inl rfl
    have hΓ : ∀ b, b < c.k → b ≠ blk s u → mp b = none → change c.H c.o s.part u b = (precompute c.o C c.H s.con (blk s u) u scr).iso := by
      intro b hb hne hm
      have := (i4 b hb hne).1
      rw [hm, Option.getD_none, Int.sub_zero] at this
      exact this.symm
    rcases key with ⟨r1, r2, r3⟩ | ⟨r1, r2, r3, r4, r5, r6, r7, r8⟩
    · rw [if_neg (fun hh => hh.2 r1)]
      refine ⟨ha, fun _ => rfl, fun h => absurd rfl h, fun _ hb => ?_⟩
      exfalso
      obtain ⟨b, hbk, hbne, hlt⟩ := hb
      by_cases hm : mp b = none
      · have h1 := hΓ b hbk hbne hm
        have h2 := i3 E.ew
        dsimp only at h2
        omega
      · have h1 := r3 b hbne (hadm b) (Or.inl hm)
        unfold startGain at h1
        rw [if_pos (show (args c).rebalance = true from rfl)] at h1
        omega
    · have hbest : ∀ b < c.k, b ≠ blk s u → M.2 ≤ change c.H c.o s.part u b := by
        intro b hbk hbne
        by_cases hm : mp b = none
        · rw [hΓ b hbk hbne hm, r4]
          have h1 := (i4 _ r2 r1).1
          have h2 := (i4 _ r2 r1).2 E.ew
          unfold change
          dsimp only at h1 h2
          omega
        · exact r7 b hbne (hadm b) hm
      by_cases hacc : (M.2 ≤ 0 ∨ c.neg d M.2 (precompute c.o C c.H s.con (blk s u) u scr).iso = true) ∧ M.1 ≠ blk s u
      · rw [if_pos hacc]
        exact ⟨r2, fun h => absurd h hacc.2, fun _ => ⟨hfree, r4, hbest, hacc.1.imp id (fun h => ⟨_, h⟩)⟩, fun _ _ => hacc.2⟩
      · rw [if_neg hacc]
        refine ⟨ha, fun _ => rfl, fun h => absurd rfl h, fun _ hb => ?_⟩
        exfalso
        obtain ⟨b, hbk, hbne, hlt⟩ := hb
        have := hbest b hbk hbne
        exact hacc ⟨Or.inl (by omega), r1⟩

theorem propose_det (E : Env c.toCfg m mx) {s s' : CSt (Packed × ConnSets)} (hG : Good (denseLawful m c.k mx) c.H s)
    (hG' : Good (denseLawful m c.k mx) c.H s') (hp : s.part = s'.part) {d : Nat} {locks locks' : Nat → Bool} {ρ ρ' : Rand} (hρ : ρ.Ok) (hρ' : ρ'.Ok)
    {scr scr' : Scratch} (hs : scr.tmp.size = 0 ∧ scr.iso = 0) (hs' : scr'.tmp.size = 0 ∧ scr'.iso = 0) {u : Nat} (hu : u ∈ c.H.nodes) (hl : locks u = locks' u) :
    propose denseCon c d s locks ρ scr u = propose denseCon c d s' locks' ρ' scr' u := by
  obtain ⟨hpu, ha⟩ := blk_some hG hu
  have hblk : blk s u = blk s' u := by unfold blk; rw [hp]
  have hS := good_sim E.wf hG
  have hS' := good_sim E.wf hG'
  rw [← hp] at hS'
  have hb : PHG.isBorderNode denseCon c.H ⟨s.part, s.wt, s.con⟩ u = PHG.isBorderNode denseCon c.H ⟨s'.part, s'.wt, s'.con⟩ u := by
    rw [Bool.eq_iff_iff, border_iff E.wf E.fits hG hu, border_iff E.wf E.fits hG' hu, hp]
  have hE : ∀ e ∈ c.H.edges, EdgeOk denseCon c.H c.k s.con s.part e ∧ EdgeOk denseCon c.H c.k s'.con s.part e ∧ denseCon.connSet s'.con e = denseCon.connSet s.con e := by
    intro e he
    have h1 := dense_connSet E.fits hS he
    have h2 := dense_connSet E.fits hS' he
    exact ⟨edgeOk E.fits hS he, edgeOk E.fits hS' he, h2.trans h1.symm⟩
  obtain ⟨d1, d2⟩ := precompute_det (H := c.H) c.o ha (c.H.inc u) (fun e he => hE e ((E.wf.inc_iff u hu e).1 he).1) (Same.empty hs.1 hs'.1) (hs.2.trans hs'.2.symm)
  obtain ⟨mp, i1, i2, _, _⟩ := precompute_spec c.o E.wf E.fits hS hu hpu (good_assigned hG) hs.1 hs.2
  unfold propose
  rw [← hb, ← hl, ← hblk]
  have hm : maxMove (args c) ρ (fun b => decide (s.wt b + c.H.nw u ≤ c.maxw b)) (fun x iso => iso - x) (precompute c.o denseCon c.H s.con (blk s u) u scr) (blk s u) =
      maxMove (args c) ρ' (fun b => decide (s'.wt b + c.H.nw u ≤ c.maxw b)) (fun x iso => iso - x) (precompute c.o denseCon c.H s'.con (blk s u) u scr') (blk s u) := by
    have h1 := hρ 1 (by decide)
    have h2 := hρ' 1 (by decide)
    refine maxMove_det rfl (by omega) (fun b hb => ?_) d1 d2 (fun x hx => ?_) _
    · rw [hG.weight E.wf hb, hG'.weight E.wf hb, hp]
    · have := (i1.toDenseInv.lists.2 x.1 x.2).1 hx
      exact i2.lt _ _ this
  have hiso : (precompute c.o denseCon c.H s.con (blk s u) u scr).iso = (precompute c.o denseCon c.H s'.con (blk s u) u scr').iso := d2
  dsimp only
  rw [hm, hiso]

/-! ### The moves -/

theorem moves_fit {L : C.Lawful m c.k mx} (hw : c.H.WF) {s : CSt σ} (hG : Good L c.H s) {f : Nat → Nat} {p : Nat → Bool} {g : Nat → Int}
    (hf : ∀ u ∈ c.H.nodes, p u = true → f u < c.k ∧ f u ≠ blk s u) :
    Fit c.H c.k s.part ((c.H.nodes.filter p).map (fun u => (⟨u, blk s u, f u, g u⟩ : Mv))) := by
  have hmem : ∀ q ∈ (c.H.nodes.filter p).map (fun u => (⟨u, blk s u, f u, g u⟩ : Mv)), q.node ∈ c.H.nodes ∧ p q.node = true ∧ q.src = blk s q.node ∧ q.dst = f q.node := by
    intro q hq
    obtain ⟨u, hu, rfl⟩ := List.mem_map.1 hq
    obtain ⟨h1, h2⟩ := List.mem_filter.1 hu
    exact ⟨h1, h2, rfl, rfl⟩
  refine ⟨?_, fun q hq => (hmem q hq).1, fun q hq => ?_, fun q hq => ?_⟩
  · rw [List.map_map]
    show ((c.H.nodes.filter p).map (fun u => u)).Nodup
    rw [List.map_id']
    exact hw.nodes_nodup.filter _
  · obtain ⟨h1, _, h3, _⟩ := hmem q hq
    rw [h3]; exact (blk_some hG h1).1
  · obtain ⟨h1, h2, h3, h4⟩ := hmem q hq
    rw [h3, h4]
    have := hf q.node h1 h2
    exact ⟨this.1, Ne.symm this.2⟩

theorem moves_part (hw : c.H.WF) {s : CSt σ} {f : Nat → Nat} {p : Nat → Bool} {g : Nat → Int} (v : Nat) :
    moveAll s.part ((c.H.nodes.filter p).map (fun u => (⟨u, blk s u, f u, g u⟩ : Mv))) v = if v ∈ c.H.nodes ∧ p v = true then some (f v) else s.part v := by
  have hnode : ((c.H.nodes.filter p).map (fun u => (⟨u, blk s u, f u, g u⟩ : Mv))).map Mv.node = c.H.nodes.filter p := by
    rw [List.map_map]
    show (c.H.nodes.filter p).map (fun u => u) = _
    rw [List.map_id']
  by_cases hv : v ∈ c.H.nodes ∧ p v = true
  · rw [if_pos hv]
    have := DetLP.moveAll_mem (Φ := s.part) _ (by rw [hnode]; exact hw.nodes_nodup.filter _) (⟨v, blk s v, f v, g v⟩ : Mv)
      (List.mem_map.2 ⟨v, List.mem_filter.2 hv, rfl⟩)
    exact this
  · rw [if_neg hv]
    apply DetLP.moveAll_other
    rw [hnode, List.mem_filter]
    exact hv

theorem apply_spec {L : C.Lawful m c.k mx} (E : Env c.toCfg m mx) {s s' : CSt σ} (hG : Good L c.H s) {A : List Mv} {g : Int} (hA : Fit c.H c.k s.part A)
    (h : Apply C c s A s' g) : Good L c.H s' ∧ s'.part = moveAll s.part A ∧ g = c.H.objective s'.part c.o - c.H.objective s.part c.o := by
  obtain ⟨as, h1, h2, h3, rfl⟩ := h
  exact DetLP.moves_spec E.wf E.fits E.nw E.tot hG hA.nodup h1 h2 h3

theorem apply_exists {L : C.Lawful m c.k mx} (E : Env c.toCfg m mx) {s : CSt σ} (hG : Good L c.H s) {A : List Mv} (hA : Fit c.H c.k s.part A) :
    ∃ s' g, Apply C c s A s' g := by
  obtain ⟨as, s', h1, h2, h3⟩ := DetLP.moves_exist (C := C) (o := c.o) E.wf E.fits E.nw E.tot A hG hA
  exact ⟨s', _, as, by rw [h1], h2, h3, rfl⟩

/-! ### Balance -/

/-- Every block respects its bound; unless the large k preset is used there are at most as many empty blocks as removed nodes. -/
def Balanced (c : Cfg) (Φ : Assign) : Prop :=
  (∀ b < c.k, c.H.blockWeight Φ b ≤ c.maxw b) ∧
  (c.largeK = true ∨ ((List.range c.k).filter (fun b => decide (c.H.blockWeight Φ b = 0))).length ≤ c.removed)

theorem balanced_iff {L : C.Lawful m c.k mx} (hw : c.H.WF) {s : CSt σ} (hG : Good L c.H s) : balanced c s.wt = true ↔ Balanced c s.part := by
  unfold balanced Balanced
  rw [Balance.C20_is_balanced]
  have h1 : (∀ i < c.k, s.wt i ≤ ((List.range c.k).map c.maxw).getD i 0) ↔ ∀ b < c.k, c.H.blockWeight s.part b ≤ c.maxw b := by
    constructor <;> intro h b hb <;> have := h b hb <;> rw [hG.weight hw hb, List.getD_eq_getElem _ _ (by simpa using hb)] at * <;> simpa using this
  have h2 : (List.range c.k).filter (fun i => decide (s.wt i = 0)) = (List.range c.k).filter (fun b => decide (c.H.blockWeight s.part b = 0)) := by
    apply List.filter_congr
    intro b hb
    rw [hG.weight hw (List.mem_range.1 hb)]
  rw [h1, h2]

/-- imbalance of a partition -/
def imbOf (c : Cfg) (Φ : Assign) : Nat := c.imb ((List.range c.k).map (c.H.blockWeight Φ))

theorem weights_eq {L : C.Lawful m c.k mx} (hw : c.H.WF) {s : CSt σ} (hG : Good L c.H s) : c.imb (weights c s) = imbOf c s.part := by
  unfold weights imbOf
  congr 1
  apply List.map_congr_left
  intro b hb
  exact hG.weight hw (List.mem_range.1 hb)

end Jet
end Verif
