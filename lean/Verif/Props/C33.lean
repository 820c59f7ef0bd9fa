import Verif.Lemmas.RB6
/-!
# C33  Recursive bipartitioning

For every hypergraph, `k ≥ 2`, objective, every result of the bipartitioning calls and every schedule of the parallel
loops and of the two concurrent tasks of each call (at the granularity of node moves, see
Model/RecursiveBipartitioning.lean).
-/
namespace Verif

/-! ### Leaves of the recursion -/

theorem Leaf.range {k lo b : Nat} {p : List Bool} (h : Leaf k lo p b) : lo ≤ b ∧ b < lo + k := by
  induction h with
  | one lo => omega
  | left hk _ ih => omega
  | right hk _ ih => omega

/-- Every block is produced by exactly one leaf of the recursion, and no other blocks are produced. -/
theorem C33_leaves (k : Nat) : ∀ lo, 1 ≤ k → (∀ b, lo ≤ b → b < lo + k → ∃! p, Leaf k lo p b) ∧ ∀ p b, Leaf k lo p b → lo ≤ b ∧ b < lo + k := by
  induction k using Nat.strong_induction_on with
  | _ k ih =>
    intro lo hk
    refine ⟨?_, fun p b h => h.range⟩
    intro b h1 h2
    rcases Nat.lt_or_ge k 2 with hk2 | hk2
    · have : k = 1 := by omega
      subst this
      have : b = lo := by omega
      subst this
      refine ⟨[], .one b, ?_⟩
      intro p hp
      cases hp with
      | one => rfl
      | left hk _ => omega
      | right hk _ => omega
    · rcases Nat.lt_or_ge b (lo + (k + 1) / 2) with hb | hb
      · obtain ⟨p, hp, hu⟩ := (ih ((k + 1) / 2) (by omega) lo (by omega)).1 b h1 hb
        refine ⟨false :: p, .left hk2 hp, ?_⟩
        intro q hq
        cases hq with
        | one => omega
        | left _ h => rw [hu _ h]
        | right _ h => have := h.range; omega
      · obtain ⟨p, hp, hu⟩ := (ih (k / 2) (by omega) (lo + (k + 1) / 2) (by omega)).1 b hb (by omega)
        refine ⟨true :: p, .right hk2 hp, ?_⟩
        intro q hq
        cases hq with
        | one => omega
        | left _ h => have := h.range; omega
        | right _ h => rw [hu _ h]

/-- the leaf of a node follows its sides in the bipartitions -/
theorem HG.RB.leaf {split : Bool} {mult : Int} {k : Nat} {H : HG} {old : Nat → Bool} {Φ : Nat → Nat} {c : Int} (h : HG.RB split mult k H old Φ c) :
    ∀ lo, ∀ v ∈ H.nodes, ∃ p, Leaf k lo p (lo + Φ v) := by
  induction h with
  | one h => intro lo v hv; rw [h v hv]; exact ⟨[], .one lo⟩
  | @two H k old old' β Φ Φ₀ Φ₁ c₀ c₁ c hk hold h₀ h₁ hΦ₀ hΦ₁ hc ih₀ ih₁ =>
    intro lo v hv
    cases hb : β v with
    | false =>
      obtain ⟨p, hp⟩ := ih₀ lo v (List.mem_filter.2 ⟨hv, by simp [HG.side, hb]⟩)
      rw [hΦ₀ v hv hb]
      exact ⟨_, .left hk hp⟩
    | true =>
      obtain ⟨p, hp⟩ := ih₁ (lo + (k + 1) / 2) v (List.mem_filter.2 ⟨hv, by simp [HG.side, hb]⟩)
      rw [hΦ₁ v hv hb, ← Nat.add_assoc]
      exact ⟨_, .right hk hp⟩

namespace RBip
open Extract PHG HG

/-! ### The two instances of the partition data structure -/

def denseFam : Fam (Packed × ConnSets) := { C := denseCon, init := denseInit }
def sparseFam : Fam SparsePC := { C := sparseCon, init := fun _ k _ => SparsePC.init k }

def denseFamLaw : FamLaw denseFam := { law := denseLawful, init := fun _ _ _ hk h0 h1 => denseInit_R hk h0 h1 }
def sparseFamLaw : FamLaw sparseFam := { law := sparseLawful, init := fun m k mx _ _ _ => sparseInit_R m k mx }

/-- the objective function optimised with a gain policy (for the Steiner tree metric: in recursive bipartitioning) -/
def Policy.objective : Policy → HG → Assign → Int
  | .cut, H, Φ => H.cut Φ
  | .km1, H, Φ => H.km1 Φ
  | .soed, H, Φ => H.soed Φ
  | .steinerTree, H, Φ => H.km1 Φ
  | .cutForGraphs, H, Φ => H.cut Φ
  | .steinerTreeForGraphs, H, Φ => H.cut Φ

section
variable {H : HG} {Φ Ψ : Assign}

theorem lam_congr_nodes (hw : H.WF) (h : ∀ v ∈ H.nodes, Φ v = Ψ v) {e : Nat} (he : e ∈ H.edges) : H.lam Φ e = H.lam Ψ e := by
  unfold HG.lam HG.blocksOf
  rw [List.filterMap_congr (fun v hv => h v (hw.pins_mem e he v hv))]

end

/-- the cost of the recursion is the objective of the result -/
theorem RB_objective {pol : Policy} (hpol : pol ≠ .steinerTreeForGraphs) {H : HG} (hw : H.WF) (hne : ∀ e ∈ H.edges, H.pins e ≠ []) {k : Nat} {Φ : Nat → Nat} {c : Int}
    (h : RB pol.split pol.mult k H (fun _ => false) Φ c) : c = pol.objective H (fun v => some (Φ v)) := by
  have km : RB true 1 k H (fun _ => false) Φ c → c = H.km1 (fun v => some (Φ v)) := by
    intro h
    rw [h.cost hw hne]
    unfold HG.km1
    congr 1
    apply List.map_congr_left
    intro e he
    have : 0 < H.lam (fun v => some (Φ v)) e := by
      obtain ⟨v, hv⟩ := List.exists_mem_of_ne_nil _ (hne e he)
      rw [lam_eq_nb]; exact nb_pos hv (by simp)
    unfold edgeCost
    simp only [Bool.false_eq_true, if_false]
    split
    · congr 1; omega
    · have : H.lam (fun v => some (Φ v)) e = 1 := by omega
      rw [this]; simp
  cases pol with
  | cut => exact h.cost_cut hw
  | cutForGraphs => exact h.cost_cut hw
  | steinerTreeForGraphs => exact absurd rfl hpol
  | km1 => exact km h
  | steinerTree => exact km h
  | soed =>
    have h : RB true 2 k H (fun _ => false) Φ c := h
    rw [h.cost hw hne]
    unfold Policy.objective HG.soed
    congr 1
    apply List.map_congr_left
    intro e he
    unfold edgeCost
    simp only [Bool.false_eq_true, if_false]
    split
    · congr 1; omega
    · simp

/-- What a user relies on. -/
structure Outcome {σ : Type} (C : ConInfo σ) (H : SHG) (k : Nat) (pol : Policy) (P : PHG σ) (c : Int) : Prop where
  /-- every node is in one of the blocks 0, …, k-1 -/
  range : ∀ v ∈ H.nodes, ∃ b < k, P.part v = some b
  /-- block weights and pin counts belong to this partition -/
  weights : ∀ b < k, P.wt b = H.toHG.blockWeight P.part b
  counts : ∀ e ∈ H.edges, ∀ b < k, C.pinCount P.con e b = H.toHG.pinsIn P.part e b
  /-- the partition is obtained by recursive bipartitioning, `c` is the sum of the costs of the bipartitions -/
  rb : ∃ pol' : Policy, (pol' = pol ∨ pol.split = pol'.split) ∧ RB pol'.split pol'.mult k H.toHG (fun _ => false) (fun v => (P.part v).getD 0) c
  /-- its objective value is the sum of the cuts of the bipartitions -/
  cost : c = pol.objective H.toHG P.part
  /-- every node belongs to the leaf of its block -/
  leaf : ∀ v ∈ H.nodes, ∃ b, P.part v = some b ∧ ∃ p, Leaf k 0 p b

theorem C33_generic {σ : Type} {F : Fam σ} (FL : FamLaw F) {env : RBEnv} (hl : env.Legal) (pol : Policy) {H : SHG} (hG : Good H)
    (hne : ∀ e ∈ H.edges, H.pins e ≠ []) {k : Nat} (hk : 2 ≤ k) (fx : Nat → Option Nat) :
    ∃ P c, partition F env pol H k fx = some (P, c) ∧ Outcome F.C H k pol P c ∧
      (env.Respects → FixOk H k fx → ∀ v ∈ H.nodes, ∀ b, fx v = some b → P.part v = some b) := by
  have main : ∀ pol' : Policy, pol' ≠ .steinerTreeForGraphs → (pol' = pol ∨ pol.split = pol'.split) →
      (∀ Φ, pol'.objective H.toHG Φ = pol.objective H.toHG Φ) →
      ∃ P c, recBip F env pol' k [] H k (fun _ => false) fx = some (P, c) ∧ Outcome F.C H k pol P c ∧
        (env.Respects → FixOk H k fx → ∀ v ∈ H.nodes, ∀ b, fx v = some b → P.part v = some b) := by
    intro pol' hp' hpp hobj
    obtain ⟨⟨P, c⟩, h1, h2⟩ := recBip_spec FL (pol := pol') hl k [] H k (fun _ => false) fx hk (le_refl _) hG
    refine ⟨P, c, h1, ?_, h2.fixed⟩
    have hrb := h2.rb (fun _ => false) (fun _ _ _ => rfl)
    have hpart : ∀ v ∈ H.nodes, P.part v = some ((P.part v).getD 0) := by
      intro v hv
      have := h2.all v hv
      cases hx : P.part v with
      | none => exact absurd hx this
      | some b => rfl
    have hw := hG.ok.wf
    obtain ⟨T, hR, hT⟩ := h2.sim.con
    refine ⟨?_, h2.sim.wt, ?_, ⟨pol', hpp, hrb⟩, ?_, ?_⟩
    · intro v hv
      exact ⟨_, hrb.lt.2 v hv, hpart v hv⟩
    · intro e he b hb
      rw [(FL.law H.m k (max H.maxEdgeSize 1)).pinCount_eq hR (hG.fits e he).1 hb]
      exact hT e he b hb
    · have hlam : ∀ e ∈ H.edges, H.toHG.lam (fun v => some ((P.part v).getD 0)) e = H.toHG.lam P.part e :=
        fun e he => lam_congr_nodes hw (fun v hv => (hpart v hv).symm) he
      have hcut : H.toHG.cut (fun v => some ((P.part v).getD 0)) = H.toHG.cut P.part := by
        unfold HG.cut; congr 1; exact List.map_congr_left (fun e he => by rw [hlam e he])
      have hkm1 : H.toHG.km1 (fun v => some ((P.part v).getD 0)) = H.toHG.km1 P.part := by
        unfold HG.km1; congr 1; exact List.map_congr_left (fun e he => by rw [hlam e he])
      have hsoed : H.toHG.soed (fun v => some ((P.part v).getD 0)) = H.toHG.soed P.part := by
        unfold HG.soed; congr 1; exact List.map_congr_left (fun e he => by rw [hlam e he])
      have hc : c = pol'.objective H.toHG (fun v => some ((P.part v).getD 0)) := RB_objective hp' hw hne hrb
      rw [← hobj, hc]
      cases pol' with
      | cut => exact hcut
      | cutForGraphs => exact hcut
      | steinerTreeForGraphs => exact hcut
      | km1 => exact hkm1
      | steinerTree => exact hkm1
      | soed => exact hsoed
    · intro v hv
      obtain ⟨p, hp⟩ := hrb.leaf 0 v hv
      rw [Nat.zero_add] at hp
      exact ⟨_, hpart v hv, p, hp⟩
  unfold partition
  cases pol with
  | cut => exact main .cut (by simp) (Or.inl rfl) (fun _ => rfl)
  | cutForGraphs => exact main .cutForGraphs (by simp) (Or.inl rfl) (fun _ => rfl)
  | steinerTreeForGraphs => exact main .cutForGraphs (by simp) (Or.inr rfl) (fun _ => rfl)
  | km1 => exact main .km1 (by simp) (Or.inl rfl) (fun _ => rfl)
  | steinerTree => exact main .km1 (by simp) (Or.inr rfl) (fun _ => rfl)
  | soed => exact main .soed (by simp) (Or.inl rfl) (fun _ => rfl)

/-- Recursive bipartitioning of a hypergraph (packed pin counts). -/
theorem C33_recursive_bipartitioning {env : RBEnv} (hl : env.Legal) (pol : Policy) {H : SHG} (hG : Good H)
    (hne : ∀ e ∈ H.edges, H.pins e ≠ []) {k : Nat} (hk : 2 ≤ k) (fx : Nat → Option Nat) :
    ∃ P c, partition denseFam env pol H k fx = some (P, c) ∧ Outcome denseCon H k pol P c ∧
      (env.Respects → FixOk H k fx → ∀ v ∈ H.nodes, ∀ b, fx v = some b → P.part v = some b) :=
  C33_generic denseFamLaw hl pol hG hne hk fx

/-- Same for the partition type with sparse pin counts. -/
theorem C33_recursive_bipartitioning_sparse {env : RBEnv} (hl : env.Legal) (pol : Policy) {H : SHG} (hG : Good H)
    (hne : ∀ e ∈ H.edges, H.pins e ≠ []) {k : Nat} (hk : 2 ≤ k) (fx : Nat → Option Nat) :
    ∃ P c, partition sparseFam env pol H k fx = some (P, c) ∧ Outcome sparseCon H k pol P c ∧
      (env.Respects → FixOk H k fx → ∀ v ∈ H.nodes, ∀ b, fx v = some b → P.part v = some b) :=
  C33_generic sparseFamLaw hl pol hG hne hk fx

/-! ### A concrete case -/

/-- all loops in order, the visits of the first task before those of the second one; the bipartitioning puts fixed
vertices into their block and the others alternately into block 0 and 1 -/
def seqEnv : RBEnv where
  ml _ _ fx v := match fx v with
    | some b => if b < 2 then b else 0
    | none => v % 2
  norder _ H := H.nodes
  order _ H _ := [H.nodes]
  eorder _ H := H.edges
  x _ _ H := seqX H
  visits _ H := H.nodes.map (fun v => (true, v)) ++ H.nodes.map (fun v => (false, v))
  j1 _ e := e
  j2 _ e := 2 * e
  jp _ := 3
  com _ _ := 0
  stable := true

theorem seqEnv_legal : seqEnv.Legal where
  norder _ _ := .refl _
  order _ _ _ := by simp [seqEnv]
  eorder _ _ := .refl _
  x _ _ H := seqX_legal H
  visits p H t := by
    have : ((seqEnv.visits p H).filter (fun x => x.1 == t)).map (·.2) = H.nodes := by
      show ((H.nodes.map (fun v => (true, v)) ++ H.nodes.map (fun v => (false, v))).filter (fun x => x.1 == t)).map (·.2) = H.nodes
      cases t <;> simp [List.filter_append, List.filter_map, Function.comp_def]
    rw [this]
  ml p H fx v hv := by
    show (match fx v with
      | some b => if b < 2 then b else 0
      | none => v % 2) < 2
    cases fx v with
    | none => simp only; omega
    | some b => simp only; split <;> omega

theorem seqEnv_respects : seqEnv.Respects := by
  intro p H fx _ h v hv b hb
  show (match fx v with
      | some b => if b < 2 then b else 0
      | none => v % 2) = b
  rw [hb]
  simp only
  rw [if_pos (h v hv b hb)]

theorem exSHG_good : Good exSHG := ⟨exSHG_ok, by decide, by decide⟩

/-- node 2 is fixed to block 3 -/
def rbFixed : Nat → Option Nat := fun v => if v = 2 then some 3 else none

theorem rbFixed_ok : FixOk exSHG 5 rbFixed := by
  intro v hv b hb
  unfold rbFixed at hb
  split at hb
  · rename_i h; subst h; cases hb; decide
  · exact absurd hb (by simp)

/-- the hypotheses of C33 hold for the recursion into 5 blocks -/
example : ∃ P c, partition denseFam seqEnv .soed exSHG 5 rbFixed = some (P, c) ∧ Outcome denseCon exSHG 5 .soed P c ∧ P.part 2 = some 3 := by
  obtain ⟨P, c, h1, h2, h3⟩ := C33_recursive_bipartitioning seqEnv_legal .soed exSHG_good (by decide) (by decide : 2 ≤ 5) rbFixed
  exact ⟨P, c, h1, h2, h3 seqEnv_respects rbFixed_ok 2 (by decide) 3 rfl⟩

/-! ### Finding: weight of fixed vertices

If all fixed vertices of a hypergraph have weight 0, `hasFixedVertices()` is false and the recursion ignores them. -/

/-- `exSHG` with weight 0 for node 2 -/
def zeroSHG : SHG := { exSHG with hnWeight := fun v => if v = 2 then 0 else exSHG.hnWeight v }

theorem C33_zero_weight_fixed_vertex_ignored :
    hasFixed zeroSHG rbFixed = false ∧ seqEnv.Respects ∧
      (∀ f lo hi x, fixRec zeroSHG rbFixed f lo hi x = none) := by
  refine ⟨by decide, seqEnv_respects, fun f lo hi x => ?_⟩
  unfold fixRec
  rw [if_neg (by decide)]

end RBip
end Verif
