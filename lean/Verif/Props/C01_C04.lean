import Verif.Lemmas.PHG
/-!
# C01-C04  Partitioned hypergraph: exact bookkeeping after every history

The specification state is just the block assignment `Φ`.
-/
namespace Verif
open PHG

/-- The operations of a history.
* `build`: construct the partition from block ids; the permutations are arbitrary schedules of
  the parallel loops (order of the nodes, for every block the order in which the chunk sums are
  added to its weight, order of the hyperedges);
* `assign`: put a still unassigned node into a block;
* `move`: try to move a node with weight limit `maxTo` for the target block. -/
inductive PHOp where
  | build (Φ : Nat → Nat) (norder : List Nat) (order : Nat → List (List Nat)) (eorder : List Nat)
  | assign (u p : Nat)
  | move (u src dst : Nat) (maxTo : Int)

/-- Specification: effect on the assignment, and whether the call succeeds. A move succeeds iff
the target block, with the moved node, respects the limit. -/
def PHOp.spec (H : HG) (Φ : Assign) : PHOp → Bool × Assign
  | .build Ψ _ _ _ => (true, fun v => if v ∈ H.nodes then some (Ψ v) else none)
  | .assign u p => (true, Φ.put u p)
  | .move u _ dst maxTo =>
    if H.blockWeight Φ dst + H.nw u ≤ maxTo then (true, Φ.put u dst) else (false, Φ)

/-- Caller contract of an operation in a state with assignment `Φ`. -/
def PHOp.Legal (H : HG) (k : Nat) (Φ : Assign) : PHOp → Prop
  | .build Ψ norder order eorder =>
    (∀ v ∈ H.nodes, Ψ v < k) ∧ norder.Perm H.nodes ∧
    (∀ b, b < k → (order b).flatten.Perm H.nodes) ∧ eorder.Perm H.edges
  | .assign u p => u ∈ H.nodes ∧ Φ u = none ∧ p < k
  | .move u src dst _ => u ∈ H.nodes ∧ Φ u = some src ∧ src ≠ dst ∧ dst < k

def PHOp.AllLegal (H : HG) (k : Nat) : Assign → List PHOp → Prop
  | _, [] => True
  | Φ, o :: os => o.Legal H k Φ ∧ AllLegal H k (o.spec H Φ).2 os

/-- Assignment after a history. -/
def PHOp.specRun (H : HG) (os : List PHOp) : Assign :=
  os.foldl (fun Φ o => (o.spec H Φ).2) (fun _ => none)

/-- Results of the calls of a history. -/
def PHOp.specResults (H : HG) : Assign → List PHOp → List Bool
  | _, [] => []
  | Φ, o :: os => (o.spec H Φ).1 :: specResults H (o.spec H Φ).2 os

/-- Dispatch to the model. -/
def PHG.exec {σ : Type} (C : ConInfo σ) (H : HG) (k : Nat) (P : PHG σ) : PHOp → Bool × PHG σ
  | .build Φ n o e => (true, build C H k P Φ n o e)
  | .assign u p => (true, setNodePart C H P u p)
  | .move u src dst maxTo => let r := changeNodePart C H P u src dst maxTo; (r.1, r.2.2)

def PHG.execAll {σ : Type} (C : ConInfo σ) (H : HG) (k : Nat) : PHG σ → List PHOp → List Bool × PHG σ
  | P, [] => ([], P)
  | P, o :: os =>
    let r := PHG.exec C H k P o
    let rs := PHG.execAll C H k r.2 os
    (r.1 :: rs.1, rs.2)

section
variable {σ : Type} {C : ConInfo σ} {H : HG} {m k mx : Nat}

theorem PHG.sim_exec {L : C.Lawful m k mx} (hw : H.WF) (hf : H.Fits m mx) {P : PHG σ} {Φ : Assign}
    (hS : Sim L H P Φ) {o : PHOp} (hl : o.Legal H k Φ) :
    (PHG.exec C H k P o).1 = (o.spec H Φ).1 ∧ Sim L H (PHG.exec C H k P o).2 (o.spec H Φ).2 := by
  cases o with
  | build Ψ n o e =>
    obtain ⟨h1, h2, h3, h4⟩ := hl
    obtain ⟨T, hR, _⟩ := hS.con
    exact ⟨rfl, build_spec hw hf hR h1 h2 h3 h4⟩
  | assign u p => exact ⟨rfl, setNodePart_spec hw hf hS hl.1 hl.2.1 hl.2.2⟩
  | move u src dst maxTo =>
    obtain ⟨h1, h2, h3, h4⟩ := hl
    obtain ⟨ha, hr⟩ := changeNodePart_spec (maxTo := maxTo) hw hf hS h1 h2 h3 h4
    simp only [PHG.exec, PHOp.spec]
    by_cases hle : H.blockWeight Φ dst + H.nw u ≤ maxTo
    · rw [if_pos hle]; obtain ⟨a1, _, a2⟩ := ha hle; exact ⟨a1, a2⟩
    · rw [if_neg hle, hr hle]; exact ⟨rfl, hS⟩

theorem PHG.sim_execAll {L : C.Lawful m k mx} (hw : H.WF) (hf : H.Fits m mx) (os : List PHOp) :
    ∀ {P : PHG σ} {Φ : Assign}, Sim L H P Φ → PHOp.AllLegal H k Φ os →
    (PHG.execAll C H k P os).1 = PHOp.specResults H Φ os ∧
    Sim L H (PHG.execAll C H k P os).2 (os.foldl (fun Φ o => (o.spec H Φ).2) Φ) := by
  induction os with
  | nil => intro P Φ hS _; exact ⟨rfl, hS⟩
  | cons o os ih =>
    intro P Φ hS hl
    obtain ⟨h1, h2⟩ := sim_exec hw hf hS hl.1
    obtain ⟨h3, h4⟩ := ih h2 hl.2
    exact ⟨by simp only [PHG.execAll, PHOp.specResults, h1, h3], h4⟩

theorem PHG.sim_init {L : C.Lawful m k mx} {c : σ} (hR : L.R c (fun _ _ => 0)) :
    Sim L H (PHG.init c) (fun _ => none) :=
  ⟨rfl, by simp, fun b _ => by simp [PHG.init, HG.blockWeight],
    _, hR, fun e _ b _ => by simp [HG.pinsIn]⟩

theorem PHG.Sim.connSet_lam {L : C.Lawful m k mx} (hf : H.Fits m mx) {P : PHG σ} {Φ : Assign}
    (hS : Sim L H P Φ) {e : Nat} (he : e ∈ H.edges) :
    C.connectivity P.con e = H.lam Φ e ∧ (C.connSet P.con e).Nodup ∧
    (∀ b, b ∈ C.connSet P.con e ↔ b ∈ H.blocksOf Φ e) := by
  obtain ⟨T, hR, hT⟩ := hS.con
  have hem := (hf e he).1
  have hm : ∀ b, b ∈ C.connSet P.con e ↔ 0 < H.pinsIn Φ e b := by
    intro b
    rw [L.connSet_mem hR hem]
    constructor
    · rintro ⟨h1, h2⟩; rw [hT e he b h1] at h2; exact h2
    · intro h
      have hb : b < k := by
        rw [← HG.mem_blocksOf, HG.blocksOf, List.mem_toFinset, List.mem_filterMap] at h
        obtain ⟨v, _, hv⟩ := h
        exact hS.range v b hv
      exact ⟨hb, by rw [hT e he b hb]; exact h⟩
  refine ⟨?_, L.connSet_nodup hR hem, fun b => by rw [hm, HG.mem_blocksOf]⟩
  rw [L.connectivity_eq hR hem]
  exact (HG.lam_eq_length (L.connSet_nodup hR hem) hm).symm

theorem PHG.Sim.numCut {L : C.Lawful m k mx} (hw : H.WF) (hf : H.Fits m mx) {P : PHG σ}
    {Φ : Assign} (hS : Sim L H P Φ) {u : Nat} (hu : u ∈ H.nodes) :
    numIncidentCut C H P u = H.numCutIncident Φ u := by
  obtain ⟨i1, i2, i3⟩ := inc_spec hw hu
  have h1 : ∀ (l : List Nat) (n : Nat), (∀ e ∈ l, e ∈ H.edges) →
      l.foldl (fun n e => if C.connectivity P.con e > 1 then n + 1 else n) n =
        n + l.countP (fun e => H.lam Φ e > 1) := by
    intro l
    induction l with
    | nil => intro n _; simp
    | cons a l ih =>
      intro n hl
      rw [List.foldl_cons, ih _ (fun e he => hl e (by simp [he])), List.countP_cons,
        (hS.connSet_lam hf (hl a (by simp))).1]
      by_cases h : H.lam Φ a > 1 <;> simp [h]; omega
  unfold numIncidentCut HG.numCutIncident
  rw [h1 _ _ (fun e he => (i2 e he).1), Nat.zero_add, List.countP_eq_length_filter,
    List.countP_eq_length_filter]
  apply List.Perm.length_eq
  rw [List.perm_ext_iff_of_nodup (i1.filter _) (hw.edges_nodup.filter _)]
  intro e
  rw [List.mem_filter, List.mem_filter]
  constructor
  · rintro ⟨a, b⟩; exact ⟨(i2 e a).1, by simp at b ⊢; exact ⟨(i2 e a).2, b⟩⟩
  · rintro ⟨a, b⟩; simp at b ⊢; exact ⟨(hw.inc_iff u hu e).2 ⟨a, b.1⟩, b.2⟩

theorem sum_blocks (w : Nat → Int) (Φ : Assign) (k : Nat) (l : List Nat)
    (h : ∀ v ∈ l, ∃ b, b < k ∧ Φ v = some b) :
    ((List.range k).map (fun b => wsum w Φ b l)).sum = (l.map w).sum := by
  induction l with
  | nil => simp [wsum_nil]
  | cons a l ih =>
    simp only [wsum_cons, List.sum_map_add, ih (fun v hv => h v (by simp [hv])), List.map_cons,
      List.sum_cons]
    congr 1
    obtain ⟨b, hb, ha⟩ := h a (by simp)
    simp only [ha, Option.some.injEq]
    have hz : ∀ j, j ≤ k → ((List.range j).map (fun i => if b = i then w a else 0)).sum =
        if b < j then w a else 0 := by
      intro j
      induction j with
      | zero => intro _; simp
      | succ j ihj =>
        intro hj
        rw [List.range_succ, List.map_append, List.sum_append, ihj (by omega)]
        by_cases h1 : b < j
        · have : b ≠ j := by omega
          simp [h1, this]; omega
        · by_cases h2 : b = j
          · simp [h2]
          · have : ¬ b < j + 1 := by omega
            simp [h1, h2, this]
    rw [hz k (Nat.le_refl k), if_pos hb]

/-- **C01 (generic form).** -/
theorem C01_generic (L : C.Lawful m k mx) (hw : H.WF) (hf : H.Fits m mx) {c : σ}
    (hR : L.R c (fun _ _ => 0)) (os : List PHOp) (hl : PHOp.AllLegal H k (fun _ => none) os) :
    let P := (PHG.execAll C H k (PHG.init c) os).2
    P.part = PHOp.specRun H os ∧
    ∀ e ∈ H.edges, ∀ b, b < k → C.pinCount P.con e b = H.pinsIn P.part e b := by
  obtain ⟨_, hS⟩ := PHG.sim_execAll hw hf os (PHG.sim_init (H := H) hR) hl
  obtain ⟨T, hT, h1⟩ := hS.con
  refine ⟨hS.part, ?_⟩
  intro e he b hb
  rw [L.pinCount_eq hT (hf e he).1 hb, h1 e he b hb]
  rw [hS.part]

/-- **C02 (generic form).** -/
theorem C02_generic (L : C.Lawful m k mx) (hw : H.WF) (hf : H.Fits m mx) {c : σ}
    (hR : L.R c (fun _ _ => 0)) (os : List PHOp) (hl : PHOp.AllLegal H k (fun _ => none) os) :
    let P := (PHG.execAll C H k (PHG.init c) os).2
    (∀ e ∈ H.edges, C.connectivity P.con e = H.lam P.part e ∧
      (C.connSet P.con e).Nodup ∧ ∀ b, b ∈ C.connSet P.con e ↔ b ∈ H.blocksOf P.part e) ∧
    (∀ v ∈ H.nodes, numIncidentCut C H P v = H.numCutIncident P.part v) := by
  obtain ⟨_, hS⟩ := PHG.sim_execAll hw hf os (PHG.sim_init (H := H) hR) hl
  have hp := hS.part
  rw [← hp] at hS
  exact ⟨fun e he => hS.connSet_lam hf he, fun v hv => hS.numCut hw hf hv⟩

/-- **C03 (generic form).** -/
theorem C03_generic (L : C.Lawful m k mx) (hw : H.WF) (hf : H.Fits m mx) {c : σ}
    (hR : L.R c (fun _ _ => 0)) (os : List PHOp) (hl : PHOp.AllLegal H k (fun _ => none) os) :
    let P := (PHG.execAll C H k (PHG.init c) os).2
    (∀ b, b < k → P.wt b = H.blockWeight P.part b) ∧
    ((∀ v ∈ H.nodes, P.part v ≠ none) →
      ((List.range k).map P.wt).sum = H.totalWeight) := by
  obtain ⟨_, hS⟩ := PHG.sim_execAll hw hf os (PHG.sim_init (H := H) hR) hl
  have hp := hS.part
  rw [← hp] at hS
  refine ⟨fun b hb => hS.wt b hb, ?_⟩
  intro hall
  unfold HG.totalWeight
  rw [← sum_blocks H.nw (PHG.execAll C H k (PHG.init c) os).2.part k H.nodes]
  · congr 1
    apply List.map_congr_left
    intro b hb
    exact hS.wt b (List.mem_range.1 hb)
  · intro v hv
    cases hpv : (PHG.execAll C H k (PHG.init c) os).2.part v with
    | none => exact absurd hpv (hall v hv)
    | some b => exact ⟨b, hS.range v b hpv, rfl⟩

/-- **C04 (generic form).** -/
theorem C04_generic (L : C.Lawful m k mx) (hw : H.WF) (hf : H.Fits m mx) {c : σ}
    (hR : L.R c (fun _ _ => 0)) (os : List PHOp) (hl : PHOp.AllLegal H k (fun _ => none) os)
    (u src dst : Nat) (maxTo : Int)
    (hlm : (PHOp.move u src dst maxTo).Legal H k (PHOp.specRun H os)) :
    let P := (PHG.execAll C H k (PHG.init c) os).2
    ((changeNodePart C H P u src dst maxTo).1 = true ↔
      H.blockWeight P.part dst + H.nw u ≤ maxTo) ∧
    ((changeNodePart C H P u src dst maxTo).1 = false →
      (changeNodePart C H P u src dst maxTo).2.2 = P ∧
      (changeNodePart C H P u src dst maxTo).2.1 = []) := by
  intro P
  obtain ⟨_, hS⟩ := PHG.sim_execAll hw hf os (PHG.sim_init (H := H) hR) hl
  obtain ⟨h1, h2, h3, h4⟩ := hlm
  obtain ⟨ha, hr⟩ := changeNodePart_spec (maxTo := maxTo) hw hf hS h1 h2 h3 h4
  have hpp : P.part = PHOp.specRun H os := hS.part
  rw [hpp]
  by_cases hle : H.blockWeight (PHOp.specRun H os) dst + H.nw u ≤ maxTo
  · obtain ⟨a1, _, _⟩ := ha hle
    exact ⟨⟨fun _ => hle, fun _ => a1⟩, fun hf => absurd a1 (by rw [hf]; simp)⟩
  · have := hr hle
    exact ⟨⟨fun h => absurd h (by rw [show _ = _ from this]; simp), fun h => absurd h hle⟩,
      fun _ => by rw [show _ = _ from this]; exact ⟨rfl, rfl⟩⟩

end

/-- The default partition type: packed pin counts and connectivity bit sets allocated for `m`
hyperedge ids and hyperedges with at most `mx` pins. -/
abbrev denseRun (H : HG) (m k mx : Nat) (os : List PHOp) : PHG (Packed × ConnSets) :=
  (PHG.execAll denseCon H k (PHG.init (denseInit m k mx)) os).2

/-- The partition type of the LARGE_K preset. -/
abbrev sparseRun (H : HG) (k : Nat) (os : List PHOp) : PHG SparsePC :=
  (PHG.execAll sparseCon H k (PHG.init (SparsePC.init k)) os).2

/-- **C01.** After every legal history, block ids are those of the specification and the
reported pin counts equal the number of pins in the block: default partition type. -/
theorem C01_pin_counts_exact (H : HG) (m k mx : Nat) (hw : H.WF) (hf : H.Fits m mx)
    (hk : 0 < k) (h0 : 0 < mx) (h1 : mx + 1 < 2 ^ 32) (os : List PHOp)
    (hl : PHOp.AllLegal H k (fun _ => none) os) :
    (denseRun H m k mx os).part = PHOp.specRun H os ∧
    ∀ e ∈ H.edges, ∀ b, b < k →
      denseCon.pinCount (denseRun H m k mx os).con e b = H.pinsIn (denseRun H m k mx os).part e b :=
  C01_generic (denseLawful m k mx) hw hf (denseInit_R hk h0 h1) os hl

/-- **C01**, LARGE_K partition type. -/
theorem C01_pin_counts_exact_sparse (H : HG) (k : Nat) (hw : H.WF) (os : List PHOp)
    (hl : PHOp.AllLegal H k (fun _ => none) os) (m mx : Nat) (hf : H.Fits m mx) :
    (sparseRun H k os).part = PHOp.specRun H os ∧
    ∀ e ∈ H.edges, ∀ b, b < k →
      sparseCon.pinCount (sparseRun H k os).con e b = H.pinsIn (sparseRun H k os).part e b :=
  C01_generic (sparseLawful m k mx) hw hf (sparseInit_R m k mx) os hl

/-- **C02.** Connectivity, connectivity sets and number of incident cut hyperedges. -/
theorem C02_connectivity_exact (H : HG) (m k mx : Nat) (hw : H.WF) (hf : H.Fits m mx)
    (hk : 0 < k) (h0 : 0 < mx) (h1 : mx + 1 < 2 ^ 32) (os : List PHOp)
    (hl : PHOp.AllLegal H k (fun _ => none) os) :
    let P := denseRun H m k mx os
    (∀ e ∈ H.edges, denseCon.connectivity P.con e = H.lam P.part e ∧
      (denseCon.connSet P.con e).Nodup ∧
      ∀ b, b ∈ denseCon.connSet P.con e ↔ b ∈ H.blocksOf P.part e) ∧
    (∀ v ∈ H.nodes, numIncidentCut denseCon H P v = H.numCutIncident P.part v) :=
  C02_generic (denseLawful m k mx) hw hf (denseInit_R hk h0 h1) os hl

/-- **C02**, LARGE_K partition type. -/
theorem C02_connectivity_exact_sparse (H : HG) (k : Nat) (hw : H.WF) (os : List PHOp)
    (hl : PHOp.AllLegal H k (fun _ => none) os) (m mx : Nat) (hf : H.Fits m mx) :
    let P := sparseRun H k os
    (∀ e ∈ H.edges, sparseCon.connectivity P.con e = H.lam P.part e ∧
      (sparseCon.connSet P.con e).Nodup ∧
      ∀ b, b ∈ sparseCon.connSet P.con e ↔ b ∈ H.blocksOf P.part e) ∧
    (∀ v ∈ H.nodes, numIncidentCut sparseCon H P v = H.numCutIncident P.part v) :=
  C02_generic (sparseLawful m k mx) hw hf (sparseInit_R m k mx) os hl

/-- **C03.** Block weights are exact and sum up to the total weight. -/
theorem C03_block_weights_exact (H : HG) (m k mx : Nat) (hw : H.WF) (hf : H.Fits m mx)
    (hk : 0 < k) (h0 : 0 < mx) (h1 : mx + 1 < 2 ^ 32) (os : List PHOp)
    (hl : PHOp.AllLegal H k (fun _ => none) os) :
    let P := denseRun H m k mx os
    (∀ b, b < k → P.wt b = H.blockWeight P.part b) ∧
    ((∀ v ∈ H.nodes, P.part v ≠ none) → ((List.range k).map P.wt).sum = H.totalWeight) :=
  C03_generic (denseLawful m k mx) hw hf (denseInit_R hk h0 h1) os hl

/-- **C03**, LARGE_K partition type. -/
theorem C03_block_weights_exact_sparse (H : HG) (k : Nat) (hw : H.WF) (os : List PHOp)
    (hl : PHOp.AllLegal H k (fun _ => none) os) (m mx : Nat) (hf : H.Fits m mx) :
    let P := sparseRun H k os
    (∀ b, b < k → P.wt b = H.blockWeight P.part b) ∧
    ((∀ v ∈ H.nodes, P.part v ≠ none) → ((List.range k).map P.wt).sum = H.totalWeight) :=
  C03_generic (sparseLawful m k mx) hw hf (sparseInit_R m k mx) os hl

/-- **C04.** In every reachable state a move is accepted iff the target block then respects the
limit; a rejected move leaves the complete state (block ids, weights, pin counts, connectivity
sets) as it was and reports no hyperedge update. -/
theorem C04_rejected_move_no_effect (H : HG) (m k mx : Nat) (hw : H.WF) (hf : H.Fits m mx)
    (hk : 0 < k) (h0 : 0 < mx) (h1 : mx + 1 < 2 ^ 32) (os : List PHOp)
    (hl : PHOp.AllLegal H k (fun _ => none) os) (u src dst : Nat) (maxTo : Int)
    (hlm : (PHOp.move u src dst maxTo).Legal H k (PHOp.specRun H os)) :
    let P := denseRun H m k mx os
    let r := changeNodePart denseCon H P u src dst maxTo
    (r.1 = true ↔ H.blockWeight P.part dst + H.nw u ≤ maxTo) ∧
    (r.1 = false → r.2.2 = P ∧ r.2.1 = []) :=
  C04_generic (denseLawful m k mx) hw hf (denseInit_R hk h0 h1) os hl u src dst maxTo hlm

/-- **C04**, LARGE_K partition type. -/
theorem C04_rejected_move_no_effect_sparse (H : HG) (k : Nat) (hw : H.WF) (os : List PHOp)
    (hl : PHOp.AllLegal H k (fun _ => none) os) (u src dst : Nat) (maxTo : Int)
    (hlm : (PHOp.move u src dst maxTo).Legal H k (PHOp.specRun H os)) (m mx : Nat)
    (hf : H.Fits m mx) :
    let P := sparseRun H k os
    let r := changeNodePart sparseCon H P u src dst maxTo
    (r.1 = true ↔ H.blockWeight P.part dst + H.nw u ≤ maxTo) ∧
    (r.1 = false → r.2.2 = P ∧ r.2.1 = []) :=
  C04_generic (sparseLawful m k mx) hw hf (sparseInit_R m k mx) os hl u src dst maxTo hlm

/-! ### Non-vacuity -/

/-- four nodes, two hyperedges -/
def exHG : HG where
  nodes := [0, 1, 2, 3]
  edges := [0, 1]
  pins := fun e => if e = 0 then [0, 1, 2] else if e = 1 then [2, 3] else []
  inc := fun v => if v = 0 then [0] else if v = 1 then [0] else if v = 2 then [0, 1]
    else if v = 3 then [1] else []
  nw := fun v => if v = 3 then 5 else 1
  ew := fun e => if e = 0 then 2 else 3

theorem exHG_wf : exHG.WF where
  nodes_nodup := by decide
  edges_nodup := by decide
  pins_mem := by decide
  pins_nodup := by decide
  inc_nodup := by decide
  inc_iff := by
    intro v hv e
    simp only [exHG, List.mem_cons, List.not_mem_nil, or_false] at hv
    rcases hv with rfl | rfl | rfl | rfl <;> by_cases h0 : e = 0 <;> by_cases h1 : e = 1 <;>
      simp [exHG, h0, h1]

theorem exHG_fits : exHG.Fits 2 3 := by unfold HG.Fits; decide

example : PHOp.AllLegal exHG 2 (fun _ => none)
    [.build (fun v => if v < 2 then 0 else 1) [3, 1, 0, 2] (fun _ => [[2, 3], [0, 1]]) [1, 0],
     .move 2 1 0 10, .move 3 1 0 2, .move 0 0 1 100] := by
  refine ⟨⟨by decide, by decide, fun b _ => (by decide : [2, 3, 0, 1].Perm [0, 1, 2, 3]), by decide⟩, ⟨by decide, by decide, by decide, by decide⟩,
    ⟨by decide, by decide, by decide, by decide⟩, ⟨by decide, by decide, by decide, by decide⟩, trivial⟩

/-- The third call of that history (node 3 of weight 5 into block 0 with limit 2) is rejected,
the others succeed. -/
example : PHOp.specResults exHG (fun _ => none)
    [.build (fun v => if v < 2 then 0 else 1) [3, 1, 0, 2] (fun _ => [[2, 3], [0, 1]]) [1, 0],
     .move 2 1 0 10, .move 3 1 0 2, .move 0 0 1 100] = [true, true, false, true] := by decide

end Verif
