import Mathlib.Algebra.Order.BigOperators.Group.List
import Verif.Model.Metrics
import Verif.Props.C01_C04
/-!
# C10  Quality metrics match their definitions
-/
namespace Verif
open PHG

theorem foldl_add_eq (f : Nat → Int) (l : List Nat) :
    ∀ a, l.foldl (fun acc e => acc + f e) a = a + (l.map f).sum := by
  induction l with
  | nil => simp
  | cons x l ih => intro a; simp [ih]; ring

theorem Metrics.sequential_eq (conn : Nat → Nat) (ew : Nat → Int) (edges : List Nat)
    (o : Metrics.Obj) : Metrics.sequential conn ew false edges o =
      (edges.map (Metrics.contrib conn ew o)).sum := by
  simp [sequential, divisor, foldl_add_eq]

theorem Metrics.parallel_eq (conn : Nat → Nat) (ew : Nat → Int) (g : Bool) (edges : List Nat)
    (locals : List (List Nat)) (h : locals.flatten.Perm edges) (o : Metrics.Obj) :
    Metrics.parallel conn ew g locals o = Metrics.sequential conn ew g edges o := by
  unfold parallel sequential
  congr 1
  rw [foldl_add_eq, zero_add, ← (h.map _).sum_eq]
  have : ∀ (ls : List (List Nat)) (a : Int), (ls.map (fun (es : List Nat) => es.foldl
      (fun acc e => acc + contrib conn ew o e) 0)).foldl (fun a b => a + b) a =
      a + (ls.flatten.map (contrib conn ew o)).sum := by
    intro ls
    induction ls with
    | nil => simp
    | cons x ls ih =>
      intro a
      rw [List.map_cons, List.foldl_cons, ih, foldl_add_eq]
      simp; ring
  rw [this]; simp

/-- the objective of the specification -/
def HG.objective (H : HG) (Φ : Assign) : Metrics.Obj → Int
  | .cut => H.cut Φ
  | .km1 => H.km1 Φ
  | .soed => H.soed Φ

theorem HG.lam_pos {H : HG} {Φ : Assign} {e v : Nat} (hv : v ∈ H.pins e) (hp : Φ v ≠ none) :
    0 < H.lam Φ e := by
  unfold lam
  rw [Finset.card_pos]
  cases h : Φ v with
  | none => exact absurd h hp
  | some b =>
    exact ⟨b, by rw [blocksOf, List.mem_toFinset, List.mem_filterMap]; exact ⟨v, hv, h⟩⟩

section
variable {σ : Type} {C : ConInfo σ} {H : HG} {m k mx : Nat}

theorem metrics_generic {L : C.Lawful m k mx} (hf : H.Fits m mx) {P : PHG σ} {Φ : Assign}
    (hS : Sim L H P Φ) (hne : ∀ e ∈ H.edges, H.pins e ≠ [])
    (hall : ∀ e ∈ H.edges, ∀ v ∈ H.pins e, Φ v ≠ none) (o : Metrics.Obj) :
    Metrics.sequential (C.connectivity P.con) H.ew false H.edges o = H.objective Φ o := by
  rw [Metrics.sequential_eq]
  have hc : ∀ e ∈ H.edges, C.connectivity P.con e = H.lam Φ e :=
    fun e he => (hS.connSet_lam hf he).1
  cases o <;> simp only [HG.objective, HG.cut, HG.km1, HG.soed] <;>
    refine congrArg List.sum (List.map_congr_left (fun e he => ?_)) <;>
    simp only [Metrics.contrib, hc e he]
  obtain ⟨v, hv⟩ := List.exists_mem_of_ne_nil _ (hne e he)
  have := HG.lam_pos hv (hall e he v hv)
  rw [max_eq_left (by omega)]

end

/-- **C10** (hypergraphs, default partition type): after every legal history that leaves all pins
assigned, the sequential and the parallel evaluation (any distribution `locals` of the hyperedges
over threads) of every objective equal the definition computed from the block ids alone. -/
theorem C10_metrics_exact (H : HG) (m k mx : Nat) (hw : H.WF) (hf : H.Fits m mx)
    (hk : 0 < k) (h0 : 0 < mx) (h1 : mx + 1 < 2 ^ 32) (hne : ∀ e ∈ H.edges, H.pins e ≠ [])
    (os : List PHOp) (hl : PHOp.AllLegal H k (fun _ => none) os)
    (hall : ∀ v ∈ H.nodes, (denseRun H m k mx os).part v ≠ none)
    (locals : List (List Nat)) (hloc : locals.flatten.Perm H.edges) (o : Metrics.Obj) :
    let P := denseRun H m k mx os
    Metrics.sequential (denseCon.connectivity P.con) H.ew false H.edges o = H.objective P.part o ∧
    Metrics.parallel (denseCon.connectivity P.con) H.ew false locals o = H.objective P.part o := by
  intro P
  obtain ⟨_, hS⟩ := PHG.sim_execAll hw hf os
    (PHG.sim_init (H := H) (denseInit_R (m := m) hk h0 h1)) hl
  have hp := hS.part
  rw [← hp] at hS
  have := metrics_generic hf hS hne (fun e he v hv => hall v (hw.pins_mem e he v hv)) o
  exact ⟨this, by rw [Metrics.parallel_eq _ _ _ _ _ hloc]; exact this⟩

/-- **C10**, LARGE_K partition type. -/
theorem C10_metrics_exact_sparse (H : HG) (m k mx : Nat) (hw : H.WF) (hf : H.Fits m mx)
    (hne : ∀ e ∈ H.edges, H.pins e ≠ [])
    (os : List PHOp) (hl : PHOp.AllLegal H k (fun _ => none) os)
    (hall : ∀ v ∈ H.nodes, (sparseRun H k os).part v ≠ none)
    (locals : List (List Nat)) (hloc : locals.flatten.Perm H.edges) (o : Metrics.Obj) :
    let P := sparseRun H k os
    Metrics.sequential (sparseCon.connectivity P.con) H.ew false H.edges o = H.objective P.part o ∧
    Metrics.parallel (sparseCon.connectivity P.con) H.ew false locals o = H.objective P.part o := by
  intro P
  obtain ⟨_, hS⟩ := PHG.sim_execAll hw hf os (PHG.sim_init (H := H) (sparseInit_R m k mx)) hl
  have hp := hS.part
  rw [← hp] at hS
  have := metrics_generic hf hS hne (fun e he v hv => hall v (hw.pins_mem e he v hv)) o
  exact ⟨this, by rw [Metrics.parallel_eq _ _ _ _ _ hloc]; exact this⟩

/-- **C10** relation between the objectives: `soed = km1 + cut`. -/
theorem C10_soed_eq_km1_add_cut (H : HG) (Φ : Assign)
    (hpos : ∀ e ∈ H.edges, 0 < H.lam Φ e) : H.soed Φ = H.km1 Φ + H.cut Φ := by
  unfold HG.soed HG.km1 HG.cut
  rw [← List.sum_map_add]
  refine congrArg List.sum (List.map_congr_left (fun e he => ?_))
  have := hpos e he
  by_cases h : H.lam Φ e > 1
  · simp only [h, if_true]; ring
  · have : H.lam Φ e = 1 := by omega
    simp [this]

/-- **C10** relation between the objectives: `cut ≤ km1` for non-negative weights. -/
theorem C10_cut_le_km1 (H : HG) (Φ : Assign) (hw : ∀ e ∈ H.edges, 0 ≤ H.ew e)
    (hpos : ∀ e ∈ H.edges, 0 < H.lam Φ e) : H.cut Φ ≤ H.km1 Φ := by
  unfold HG.km1 HG.cut
  apply List.sum_le_sum
  intro e he
  have h1 := hpos e he
  have h2 := hw e he
  by_cases h : H.lam Φ e > 1
  · simp only [h, if_true]
    have : (1 : Int) ≤ (H.lam Φ e : Int) - 1 := by omega
    have := Int.mul_le_mul_of_nonneg_right this h2
    omega
  · have : H.lam Φ e = 1 := by omega
    simp [this]

/-- total weight of the undirected edges whose endpoints are in different blocks -/
def graphCut (Φ : Assign) (U : List (Nat × Nat × Int)) : Int :=
  ((U.filter (fun x => Φ x.1 ≠ Φ x.2.1)).map (fun x => x.2.2)).sum

/-- objective of a graph partition, over undirected edges -/
def graphObjective (Φ : Assign) (U : List (Nat × Nat × Int)) : Metrics.Obj → Int
  | .cut => graphCut Φ U
  | .km1 => graphCut Φ U
  | .soed => 2 * graphCut Φ U

/-- contribution of a directed edge, from its endpoints -/
def edgeTerm (Φ : Assign) (o : Metrics.Obj) (x : Nat × Nat × Int) : Int :=
  if Φ x.1 ≠ Φ x.2.1 then (if o = .soed then 2 else 1) * x.2.2 else 0

theorem edgeTerm_sum (Φ : Assign) (o : Metrics.Obj) (U : List (Nat × Nat × Int)) :
    (U.map (edgeTerm Φ o)).sum = graphObjective Φ U o := by
  induction U with
  | nil => cases o <;> simp [graphObjective, graphCut]
  | cons x U ih =>
    rw [List.map_cons, List.sum_cons, ih]
    by_cases h : Φ x.1 = Φ x.2.1 <;> cases o <;> simp [graphObjective, graphCut, edgeTerm, h]
    ring

/-- **C10** (graphs): `edges` are directed edge ids such that the directed edges are exactly the
undirected edges `U` in both directions. Sequential and parallel evaluation count every
undirected edge once. -/
theorem C10_graph_metrics_exact (G : DiGraph) (Φ : Assign) (U : List (Nat × Nat × Int))
    (hU : (G.edges.map (fun e => (G.src e, G.tgt e, G.ew e))).Perm
      (U ++ U.map (fun x => (x.2.1, x.1, x.2.2))))
    (hall : ∀ e ∈ G.edges, Φ (G.src e) ≠ none ∧ Φ (G.tgt e) ≠ none)
    (locals : List (List Nat)) (hloc : locals.flatten.Perm G.edges) (o : Metrics.Obj) :
    Metrics.sequential (G.connectivity Φ) G.ew true G.edges o = graphObjective Φ U o ∧
    Metrics.parallel (G.connectivity Φ) G.ew true locals o = graphObjective Φ U o := by
  have key : Metrics.sequential (G.connectivity Φ) G.ew true G.edges o = graphObjective Φ U o := by
    unfold Metrics.sequential
    rw [foldl_add_eq, zero_add]
    have h1 : (G.edges.map (Metrics.contrib (G.connectivity Φ) G.ew o)).sum =
        ((G.edges.map (fun e => (G.src e, G.tgt e, G.ew e))).map (edgeTerm Φ o)).sum := by
      rw [List.map_map]
      refine congrArg List.sum (List.map_congr_left (fun e he => ?_))
      obtain ⟨ha, hb⟩ := hall e he
      simp only [Function.comp, edgeTerm]
      by_cases h : Φ (G.src e) = Φ (G.tgt e)
      · have hc : G.connectivity Φ e = 1 := by
          simp [DiGraph.connectivity, h]; rw [← h]; exact ha
        cases o <;> simp [Metrics.contrib, hc, h]
      · have hc : G.connectivity Φ e = 2 := by
          simp [DiGraph.connectivity, ha, hb, Ne.symm h]
        cases o <;> simp [Metrics.contrib, hc, h]
    rw [h1, (hU.map _).sum_eq, List.map_append, List.sum_append, List.map_map]
    have h2 : (edgeTerm Φ o ∘ fun x : Nat × Nat × Int => (x.2.1, x.1, x.2.2)) = edgeTerm Φ o := by
      funext x
      simp only [Function.comp, edgeTerm, ne_comm]
    rw [h2, edgeTerm_sum, Metrics.divisor, if_pos rfl, ← two_mul, Int.mul_tdiv_cancel_left _ (by decide)]
  exact ⟨key, by rw [Metrics.parallel_eq _ _ _ _ _ hloc]; exact key⟩

/-- **C10, defect**: the public helper `contribution(hg, e, Objective::cut)` does *not* return the
cut contribution of a hyperedge: for a cut hyperedge of weight 1 spanning two blocks it returns 2
(its only caller uses it for log output). -/
theorem C10_contribution_cut_wrong : ∃ (conn : Nat → Nat) (ew : Nat → Int) (e : Nat),
    Metrics.contribution conn ew .cut e ≠ Metrics.contrib conn ew .cut e :=
  ⟨fun _ => 2, fun _ => 1, 0, by decide⟩

/-- For km1 and soed the helper agrees with the summand of the objective. -/
theorem C10_contribution_km1_soed (conn : Nat → Nat) (ew : Nat → Int) (e : Nat) :
    Metrics.contribution conn ew .km1 e = Metrics.contrib conn ew .km1 e ∧
    Metrics.contribution conn ew .soed e = Metrics.contrib conn ew .soed e := ⟨rfl, rfl⟩

/-- Non-vacuity: a triangle, every undirected edge stored in both directions. -/
def exTriangle : DiGraph where
  edges := [0, 1, 2, 3, 4, 5]
  src := fun e => [0, 0, 1, 1, 2, 2].getD e 0
  tgt := fun e => [1, 2, 0, 2, 0, 1].getD e 0
  ew := fun e => [5, 7, 5, 3, 7, 3].getD e 0

example : (exTriangle.edges.map (fun e => (exTriangle.src e, exTriangle.tgt e, exTriangle.ew e))).Perm
    ([(0, 1, 5), (0, 2, 7), (1, 2, 3)] ++
      [(0, 1, 5), (0, 2, 7), (1, 2, 3)].map (fun x => (x.2.1, x.1, x.2.2))) := by decide

example : graphObjective (fun v => some (v / 2)) [(0, 1, 5), (0, 2, 7), (1, 2, 3)] .cut = 10 := by
  decide

end Verif
