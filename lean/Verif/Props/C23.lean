import Verif.Lemmas.Extract4
import Verif.Lemmas.Extract6
import Verif.Props.C05_C06_C11_C14
import Verif.Props.C15_C16
/-!
# C23  Extraction of blocks

`Extract.IsBlock H Φ b split H' f g` (Spec/ExtractedBlock.lean): `H'` is the sub-hypergraph of `H`
induced by block `b` with nodes renamed by `f` and hyperedges renamed by `g`.
-/
namespace Verif
namespace Extract
open PHG HG

/-- What `extract(block, already_cut, split, stable)` returns -/
def Extracted (H : SHG) (Φ : Assign) (b : Nat) (split : Bool) (com : Nat → Nat) (cut : Option (Nat → Bool)) (B : Block) : Prop :=
  ∃ H' g, B.hg = some H' ∧ IsBlock H Φ b split H' B.hnMap g ∧
    (∀ c, cut = some c → ∀ e ∈ (H.toHG.restrict Φ b split).edges, B.cut (g e) = c e) ∧
    (∀ v ∈ (H.toHG.restrict Φ b split).nodes, B.com (B.hnMap v) = com v)

section
variable {H : SHG} {com : Nat → Nat} {cut : Option (Nat → Bool)} {split stable : Bool}

theorem C23_generic {σ : Type} {C : ConInfo σ} {m k mx : Nat} {L : C.Lawful m k mx} {P : PHG σ} {Φ : Assign} (hok : Ok H)
    (hf : H.toHG.Fits m mx) (hS : Sim L H.toHG P Φ) {b : Nat} (hb : b < k) {s : XSched} (hs : s.Legal H) :
    Extracted H Φ b split com cut (extract C H P com b cut split stable s) ∧
      ∀ v ∈ H.nodes, Φ v ≠ some b → (extract C H P com b cut split stable s).hnMap v = kInvalid := by
  obtain ⟨H', g, h1, h2, h3, h4, h5⟩ := extractWith_spec (stable := stable) (com := com) (cut := cut) (part := P.part) hok hs
    (sel := select C P.con b split) (fun e he => select_iff hf hS hb he) (fun v _ => by rw [hS.part])
  exact ⟨⟨H', g, h1, h2, h3, h4⟩, h5⟩

/-- Extraction of one block after any history of the partitioned hypergraph (packed pin counts), for
every schedule of the parallel loops. -/
theorem C23_extract_dense {m k mx : Nat} (hok : Ok H) (hf : H.toHG.Fits m mx) (hk : 0 < k) (h0 : 0 < mx) (h1 : mx + 1 < 2 ^ 32)
    (os : List PHOp) (hl : PHOp.AllLegal H.toHG k (fun _ => none) os) {b : Nat} (hb : b < k) {s : XSched} (hs : s.Legal H) :
    let P := denseRun H.toHG m k mx os
    Extracted H P.part b split com cut (extract denseCon H P com b cut split stable s) ∧
      ∀ v ∈ H.nodes, P.part v ≠ some b → (extract denseCon H P com b cut split stable s).hnMap v = kInvalid :=
  C23_generic hok hf (dense_sim H.toHG m k mx hok.wf hf hk h0 h1 os hl) hb hs

/-- Same for the sparse pin counts used for large k. -/
theorem C23_extract_sparse {k : Nat} (hok : Ok H)
    (os : List PHOp) (hl : PHOp.AllLegal H.toHG k (fun _ => none) os) {b : Nat} (hb : b < k) {s : XSched} (hs : s.Legal H) :
    let P := sparseRun H.toHG k os
    Extracted H P.part b split com cut (extract sparseCon H P com b cut split stable s) ∧
      ∀ v ∈ H.nodes, P.part v ≠ some b → (extract sparseCon H P com b cut split stable s).hnMap v = kInvalid := by
  obtain ⟨mx, hmx⟩ : ∃ mx, ∀ e ∈ H.edges, (H.pins e).length ≤ mx :=
    ⟨(H.edges.map (fun e => (H.pins e).length)).sum, fun e he => List.le_sum_of_mem (List.mem_map.2 ⟨e, he, rfl⟩)⟩
  have hf : H.toHG.Fits H.m mx := fun e he => ⟨by
    have := (List.mem_filter.1 he).1
    exact List.mem_range.1 this, hmx e he⟩
  exact C23_generic hok hf (sparse_sim H.toHG H.m k mx hok.wf hf os hl) hb hs

theorem C23_all_generic {σ : Type} {C : ConInfo σ} {m k mx : Nat} {L : C.Lawful m k mx} {P : PHG σ} {Φ : Assign} (hok : Ok H)
    (hf : H.toHG.Fits m mx) (hS : Sim L H.toHG P Φ) {s : ASched} (hs : s.Legal C H P k split) :
    ∀ b < k, Extracted H Φ b split com cut ((extractAll C H P k com cut split stable s).1 b) := by
  intro b hb
  obtain ⟨H', g, h1, h2, h3, h4⟩ := extractAll_spec (stable := stable) (com := com) (cut := cut) hok hf hS hs b hb
  exact ⟨H', g, h1, h2, h3, h4⟩

/-- Extraction of all blocks at once -/
theorem C23_extract_all_dense {m k mx : Nat} (hok : Ok H) (hf : H.toHG.Fits m mx) (hk : 0 < k) (h0 : 0 < mx) (h1 : mx + 1 < 2 ^ 32)
    (os : List PHOp) (hl : PHOp.AllLegal H.toHG k (fun _ => none) os) {s : ASched}
    (hs : s.Legal denseCon H (denseRun H.toHG m k mx os) k split) :
    ∀ b < k, Extracted H (denseRun H.toHG m k mx os).part b split com cut
      ((extractAll denseCon H (denseRun H.toHG m k mx os) k com cut split stable s).1 b) :=
  C23_all_generic hok hf (dense_sim H.toHG m k mx hok.wf hf hk h0 h1 os hl) hs

end

/-! ### Objectives of refined partitions -/
section
variable {H : SHG} {Φ : Assign} {k : Nat} {B : Nat → SHG} {f g : Nat → Nat → Nat} {ψ : Nat → Assign} {Ψ : Assign}

/-- `Ψ` is the partition of `H` composed of the partitions `ψ b` of the extracted blocks -/
structure Composed (H : SHG) (Φ : Assign) (k : Nat) (B : Nat → SHG) (f : Nat → Nat → Nat) (ψ : Nat → Assign) (Ψ : Assign) : Prop where
  total : ∀ v ∈ H.nodes, ∃ b < k, Φ v = some b
  sub : ∀ b < k, ∀ x ∈ (B b).nodes, ψ b x ≠ none
  all : ∀ v ∈ H.nodes, Ψ v ≠ none
  same : ∀ u ∈ H.nodes, ∀ v ∈ H.nodes, Ψ u = Ψ v ↔ ∃ b < k, Φ u = some b ∧ Φ v = some b ∧ ψ b (f b u) = ψ b (f b v)

theorem Composed.lam {split : Bool} (hc : Composed H Φ k B f ψ Ψ) (hw : H.toHG.WF) {b : Nat} (hb : b < k) {g : Nat → Nat}
    (hB : IsBlock H Φ b split (B b) (f b) g) {e : Nat} (he : e ∈ (H.toHG.restrict Φ b split).edges) :
    (H.toHG.restrict Φ b split).lam (fun v => ψ b (f b v)) e = (H.toHG.restrict Φ b split).lam Ψ e := by
  have hw' := restrict_WF hw Φ b split
  have hmem : ∀ v ∈ (H.toHG.restrict Φ b split).pins e, v ∈ H.nodes ∧ Φ v = some b ∧ v ∈ (H.toHG.restrict Φ b split).nodes := by
    intro v hv
    have h1 := hw'.pins_mem e he v hv
    have h2 := List.mem_filter.1 h1
    exact ⟨h2.1, by simpa using h2.2, h1⟩
  rw [lam_eq_nb, lam_eq_nb]
  apply nb_kernel
  · intro v hv
    exact hc.sub b hb _ ((hB.iso.nodes _).2 ⟨v, (hmem v hv).2.2, rfl⟩)
  · intro v hv; exact hc.all v (hmem v hv).1
  · intro u hu v hv
    rw [hc.same u (hmem u hu).1 v (hmem v hv).1]
    constructor
    · intro h; exact ⟨b, hb, (hmem u hu).2.1, (hmem v hv).2.1, h⟩
    · rintro ⟨b', _, h1, _, h3⟩
      rw [(hmem u hu).2.1] at h1
      cases h1
      exact h3

theorem Composed.refines (hc : Composed H Φ k B f ψ Ψ) : H.toHG.Refines Ψ Φ := by
  intro u hu v hv h
  obtain ⟨b, _, h1, h2, _⟩ := (hc.same u hu v hv).1 h
  rw [h1, h2]

/-- With cut-net splitting: km1 of the composed partition is km1 of the given partition plus the sum
of km1 over the extracted blocks. -/
theorem C23_km1 (hw : H.toHG.WF) (hc : Composed H Φ k B f ψ Ψ) (hB : ∀ b < k, IsBlock H Φ b true (B b) (f b) (g b)) :
    H.toHG.km1 Ψ = H.toHG.km1 Φ + ∑ b ∈ Finset.range k, (B b).toHG.km1 (ψ b) := by
  rw [km1_refine hw hc.total hc.all hc.refines]
  congr 1
  apply Finset.sum_congr rfl
  intro b hb
  have hb := Finset.mem_range.1 hb
  rw [(hB b hb).iso.km1 (restrict_WF hw _ _ _) (hB b hb).wf]
  unfold HG.km1
  congr 1
  apply List.map_congr_left
  intro e he
  rw [hc.lam hw hb (hB b hb) he]

/-- Without cut-net splitting: the cut of the composed partition is the cut of the given partition
plus the sum of the cuts of the extracted blocks. -/
theorem C23_cut (hw : H.toHG.WF) (hc : Composed H Φ k B f ψ Ψ) (hB : ∀ b < k, IsBlock H Φ b false (B b) (f b) (g b)) :
    H.toHG.cut Ψ = H.toHG.cut Φ + ∑ b ∈ Finset.range k, (B b).toHG.cut (ψ b) := by
  rw [cut_refine hw hc.total hc.all hc.refines]
  congr 1
  apply Finset.sum_congr rfl
  intro b hb
  have hb := Finset.mem_range.1 hb
  rw [(hB b hb).iso.cut (restrict_WF hw _ _ _) (hB b hb).wf]
  unfold HG.cut
  congr 1
  apply List.map_congr_left
  intro e he
  rw [hc.lam hw hb (hB b hb) he]

end

/-! ### Concrete cases -/

/-- one thread, hyperedges in order, one reduction task -/
def seqBuild (n m : Nat) (ev : Nat → List Nat) : Factory.FSched n :=
  { threads := 1, thread := fun _ => 0, pins := Factory.allPins m ev
    reduce := .extend (.start 0) n (Nat.zero_le n) }

def seqX (H : SHG) : XSched :=
  { pinOrder := H.edges, weightOrder := H.nodes, cutOrder := H.edges, comOrder := H.nodes, build := seqBuild
    arr0 := fun _ => 0, nets0 := fun _ => 0 }

theorem seqX_legal (H : SHG) : (seqX H).Legal H :=
  ⟨.refl _, .refl _, .refl _, .refl _, fun _ _ _ => ⟨fun _ _ => Nat.one_pos, .refl _⟩⟩

/-- nodes 0, 1, 4 in block 0 and 2, 3 in block 1 -/
def exXOps : List PHOp :=
  [.build (fun v => if v = 2 ∨ v = 3 then 1 else 0) [4, 3, 2, 1, 0] (fun _ => [[4, 1, 0], [2, 3]]) [0, 1, 2, 3, 4]]

theorem exSHG_wf : exSHG.toHG.WF where
  nodes_nodup := by decide
  edges_nodup := by decide
  pins_mem := by decide
  pins_nodup := by decide
  inc_nodup := by decide
  inc_iff := by
    intro v hv e
    constructor
    · intro he
      revert e; revert v; decide
    · rintro ⟨h1, h2⟩
      revert e; revert v; decide

theorem exSHG_ok : Ok exSHG := ⟨exSHG_wf, by decide, by decide, by decide, by decide⟩

/-- block 0 of `exSHG` keeps hyperedge 0 = {0,1} and, with cut-net splitting, the two pins 0, 4 of
hyperedge 2 = {0,3,4} -/
example : (exSHG.toHG.restrict (PHOp.specRun exSHG.toHG exXOps) 0 true).edges = [0, 2] ∧
    (exSHG.toHG.restrict (PHOp.specRun exSHG.toHG exXOps) 0 true).pins 2 = [0, 4] ∧
    (exSHG.toHG.restrict (PHOp.specRun exSHG.toHG exXOps) 0 false).edges = [0] := by decide +kernel

theorem exXOps_legal : PHOp.AllLegal exSHG.toHG 2 (fun _ => none) exXOps :=
  ⟨⟨by decide, by decide, fun _ _ => (by decide : [4, 1, 0, 2, 3].Perm [0, 1, 2, 3, 4]), by decide⟩, trivial⟩

example : Extracted exSHG (denseRun exSHG.toHG 6 2 3 exXOps).part 0 true exCom none
    (extract denseCon exSHG (denseRun exSHG.toHG 6 2 3 exXOps) exCom 0 none true false (seqX exSHG)) :=
  (C23_extract_dense exSHG_ok (by unfold HG.Fits; decide) (by decide) (by decide) (by decide) exXOps exXOps_legal (by decide) (seqX_legal _)).1

/-! ### Finding: extraction while another task moves nodes

In recursive bipartitioning (k ≥ 4) two tasks work on the same partitioned hypergraph: one extracts
block 2 while the other one moves nodes from block 0 to block 1.  Between the two pin count updates of
a hyperedge (`decrementPinCountOfBlock`, `incrementPinCountOfBlock`) a cut hyperedge with pins in 0 and
2 is seen with connectivity 1, so without cut-net splitting the condition evaluates to true. -/

/-- one hyperedge {0,1,2} -/
def raceSHG : SHG :=
  { n := 3, m := 1
    hnEnabled := fun _ => true, hnFirst := fun v => v, hnSize := fun _ => 1, hnWeight := fun _ => 1
    heEnabled := fun _ => true, heFirst := fun _ => 0, heSize := fun _ => 3, heWeight := fun _ => 1
    incidenceArray := fun i => i, incidentNets := fun _ => 0
    totalWeight := 3, numPins := 3, totalDegree := 3, maxEdgeSize := 3 }

/-- node 0 in block 0, nodes 1 and 2 in block 2 -/
def raceOps : List PHOp := [.build (fun v => if v = 0 then 0 else 2) [0, 1, 2] (fun _ => [[0, 1, 2]]) [0]]

theorem raceOps_legal : PHOp.AllLegal raceSHG.toHG 4 (fun _ => none) raceOps :=
  ⟨⟨by decide, by decide, fun _ _ => (by decide : [0, 1, 2].Perm [0, 1, 2]), by decide⟩, trivial⟩

/-- `P` before, `c1` in the middle and `c2` after the move of node 0 from block 0 to block 1. -/
theorem C23_extract_race :
    let P := denseRun raceSHG.toHG 1 4 3 raceOps
    let c1 := (denseCon.decBlock P.con 0 0).2
    let c2 := (denseCon.incBlock c1 0 1).2
    -- `c2` is the state after the move
    (changeNodePart denseCon raceSHG.toHG P 0 0 1 10).2.2.con = c2 ∧
    -- the hyperedge is not selected before and after the move, but in between
    select denseCon P.con 2 false 0 = false ∧ select denseCon c1 2 false 0 = true ∧ select denseCon c2 2 false 0 = false ∧
    -- if the second evaluation falls into the gap, `edge_vector[kInvalidHyperedge]` is written although no hyperedge was counted
    (number raceSHG.edges (select denseCon P.con 2 false)).2 = 0 ∧
    (number raceSHG.edges (select denseCon P.con 2 false)).1 0 = kInvalid ∧
    -- if the first one falls into the gap, the hypergraph gets an empty hyperedge and the construction throws an exception
    (extractWith raceSHG P.part (fun _ => 0) 2 none false (seqX raceSHG) (select denseCon c1 2 false) (select denseCon c2 2 false)).hg.isNone = true ∧
    -- if both fall into gaps, the extracted hypergraph contains a hyperedge that is already cut
    ((extractWith raceSHG P.part (fun _ => 0) 2 none false (seqX raceSHG) (select denseCon c1 2 false) (select denseCon c1 2 false)).hg.map
      (fun H => (H.m, H.pins 0))) = some (1, [0, 1]) := by
  refine ⟨rfl, ?_⟩
  decide +kernel

end Extract
end Verif
