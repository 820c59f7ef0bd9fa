import Verif.Lemmas.Map6
/-!
# C60-C62: one-to-one mapping of the blocks onto the target graph

C60: Kernighan-Lin local search. C61: greedy construction. C62: choice of the best mapping and mapping of the partition.
-/
namespace Verif
namespace OneMap

/-! ## C60 -/

/-- **C60** (gains). For a one-to-one mapping, the computed gain of a swap is the exact decrease of the Steiner tree objective, and the auxiliary marks are cleared again. -/
theorem C60_swap_gain {c : Cfg} (hw : c.H.WF) {Φ : Assign} (hS : ∀ v ∈ c.H.nodes, ∃ b, Φ v = some b) (hI : ∀ v ∈ c.H.nodes, ∀ w ∈ c.H.nodes, Φ v = Φ w → v = w)
    {u v : Nat} (hne : u ≠ v) (hu : u ∈ c.H.nodes) (hv : v ∈ c.H.nodes) :
    (swapGain c Φ (fun _ => false) u v).1 = c.H.steiner c.dist Φ - c.H.steiner c.dist (fun x => if x = u then Φ v else if x = v then Φ u else Φ x) ∧
    (swapGain c Φ (fun _ => false) u v).2 = fun _ => false := by
  have h := swapGain_eq hw ⟨hS, hI⟩ hne hu hv
  obtain ⟨bu, hbu⟩ := hS u hu
  obtain ⟨bv, hbv⟩ := hS v hv
  have e : vertexSwap Φ u v = fun x => if x = u then Φ v else if x = v then Φ u else Φ x := by
    funext x
    rw [vertexSwap_apply hbu hbv]
    by_cases h1 : x = u
    · rw [h1, Equiv.swap_apply_left, if_pos rfl]
    · by_cases h2 : x = v
      · rw [h2, Equiv.swap_apply_right, if_neg (Ne.symm hne), if_pos rfl]
      · rw [Equiv.swap_apply_of_ne_of_ne h1 h2, if_neg h1, if_neg h2]
  rw [e] at h
  rw [h]
  exact ⟨rfl, rfl⟩

/-- **C60.** On every one-to-one mapping the local search terminates. The result is a permutation of the given mapping, its Steiner tree objective is not larger, fixed
nodes stay where they are, and with individual block weights every node that is moved fits into its new block. -/
theorem C60_local_search {c : Cfg} (hw : c.H.WF) (hd : ∀ S, 0 ≤ c.dist S) (he : ∀ e ∈ c.H.edges, 0 ≤ c.H.ew e) {Φ : Assign}
    (hS : ∀ v ∈ c.H.nodes, ∃ b, Φ v = some b) (hI : ∀ v ∈ c.H.nodes, ∀ w ∈ c.H.nodes, Φ v = Φ w → v = w) :
    ∃ Φ' N, (∀ n ≥ N, improve c n Φ = some Φ') ∧
      (c.H.nodes.map Φ').Perm (c.H.nodes.map Φ) ∧ c.H.steiner c.dist Φ' ≤ c.H.steiner c.dist Φ ∧
      (∀ v, c.fixed v = true → Φ' v = Φ v) ∧
      (c.indiv = true → ∀ v ∈ c.H.nodes, Φ' v ≠ Φ v → ∃ b, Φ' v = some b ∧ c.H.nw v ≤ c.mx b) := by
  obtain ⟨Φ', N, h1, h2, h3⟩ := improveLoop_spec hw hd he Φ 0 ⟨hS, hI⟩
  exact ⟨Φ', N, h1, h2.perm, h3, fun v hv => h2.keep v (Or.inl hv), fun hi v hv hne => (h2.fit hi v hv).resolve_left hne⟩

/-! ## C61 -/

/-- **C61.** One node per processor, fixed nodes with different blocks, a choice function that returns an element of the list, and a usable seed node: the greedy algorithm
terminates and returns a one-to-one mapping of the nodes onto the processors in which every fixed node is on its block. -/
theorem C61_greedy_mapping {c : GCfg} (hw : c.H.WF) (hk : c.H.nodes.length = c.k) (hpk : ∀ u l, l ≠ [] → c.pick u l ∈ l)
    (hlt : ∀ v ∈ c.H.nodes, c.fixed v = true → c.fixedBlock v < c.k)
    (hinj : ∀ v ∈ c.H.nodes, ∀ w ∈ c.H.nodes, c.fixed v = true → c.fixed w = true → c.fixedBlock v = c.fixedBlock w → v = w)
    {seed : Nat} (hs : seed ∈ c.H.nodes) (hS : SeedOk c seed) :
    ∃ Φ N, (∀ n ≥ N, greedy c n seed = some Φ) ∧ (c.H.nodes.map Φ).Perm ((List.range c.k).map some) ∧
      ∀ v ∈ c.H.nodes, c.fixed v = true → Φ v = some (c.fixedBlock v) := by
  obtain ⟨Φ, N, h1, h2, h3, h4, -⟩ := greedy_spec hw hk hpk ⟨hlt, hinj⟩ hs hS
  refine ⟨Φ, N, h1, ?_, h4⟩
  have hnd : (c.H.nodes.map Φ).Nodup := by
    rw [List.nodup_map_iff_inj_on hw.nodes_nodup]
    intro v hv w _ hvw
    obtain ⟨b, -, hb⟩ := h2 v hv
    exact h3 v w b hb (hvw ▸ hb)
  refine (List.subperm_of_subset hnd ?_).perm_of_length_le ?_
  · intro x hx
    obtain ⟨v, hv, rfl⟩ := List.mem_map.mp hx
    obtain ⟨b, hb, hb'⟩ := h2 v hv
    rw [hb']
    exact List.mem_map_of_mem (List.mem_range.mpr hb)
  · rw [List.length_map, List.length_map, List.length_range, hk]

/-- **C61** (greedy choice). Each iteration of the main loop leaves the mapping as it is or assigns one node to an unused processor `p` such that the increase of the Steiner
tree objective is at most the increase for every other unused processor (with individual block weights: for every unused processor on which the node fits). -/
theorem C61_greedy_choice {c : GCfg} (hw : c.H.WF) (hk : c.H.nodes.length = c.k) (hpk : ∀ u l, l ≠ [] → c.pick u l ∈ l)
    (hlt : ∀ v ∈ c.H.nodes, c.fixed v = true → c.fixedBlock v < c.k)
    (hinj : ∀ v ∈ c.H.nodes, ∀ w ∈ c.H.nodes, c.fixed v = true → c.fixed w = true → c.fixedBlock v = c.fixedBlock w → v = w) (hd0 : c.dist ∅ = 0)
    {seed : Nat} (hs : seed ∈ c.H.nodes) {g g' : GSt} (hr : Reach c seed g) (hg : greedyStep c g = some g') :
    g'.Φ = g.Φ ∨ ∃ u ∈ c.H.nodes, ∃ p < c.k, g.Φ u = none ∧ (∀ v, g.Φ v ≠ some p) ∧ g'.Φ = g.Φ.put u p ∧
      ∀ q < c.k, (∀ v, g.Φ v ≠ some q) → (c.indiv = true → c.H.nw u ≤ c.mx q) → c.H.steiner c.dist (g.Φ.put u p) ≤ c.H.steiner c.dist (g.Φ.put u q) := by
  obtain ⟨i1, i2⟩ := reach_inv hw hk hpk ⟨hlt, hinj⟩ hs hr
  obtain ⟨-, -, h⟩ := step_spec hw hk hpk i1 i2 hg
  rcases h with h | ⟨u, hu, rest, -, hn, h⟩
  · exact Or.inl h
  · have hun := (i1.un _).mp (show g.un (chosen c { g with pq := rest } u) = true from
      chosen_un (g := { g with pq := rest }) hpk (free_ne hw hk (g := g) i1 hu hn) u)
    refine Or.inr ⟨u, hu, _, hun.1, hn, hun.2, h, fun q hq hqu hqw => ?_⟩
    exact chosen_min (g := { g with pq := rest }) hw hd0 hpk hu hn (List.mem_filter.mpr ⟨List.mem_range.mpr hq, (i1.un q).mpr ⟨hq, hqu⟩⟩) hqw

/-- the results of the algorithm are among the states of `C61_greedy_choice` -/
theorem C61_runs {c : GCfg} {seed n : Nat} {Φ : Assign} (h : greedy c n seed = some Φ) : ∃ g, Reach c seed g ∧ g.Φ = Φ := greedy_reach h

/-- without fixed nodes and individual block weights every seed node is usable -/
theorem seedOk_plain {c : GCfg} (hf : ∀ v, c.fixed v = false) (hi : c.indiv = false) (seed : Nat) : SeedOk c seed := by
  unfold SeedOk
  rw [if_neg (by rw [hf]; simp), hi]
  intro h; cases h

/-! ## C62 -/

section
variable {α : Type} [LinearOrder α]

/-- **C62.** Mapping of a partition in which no block is empty: for every order of the critical sections the result is the partition after a permutation `σ` of the blocks. Its
Steiner tree objective is not larger, block weights are permuted in the same way, and fixed nodes keep their block. -/
theorem C62_initial_mapping {H : SHG} {part : Nat → Nat} {s : CSched} {buf : CBuf} {fixed : Nat → Bool} {base : GCfg} (hR : H.Rep)
    (hpn : ∀ e ∈ H.edges, ∀ v ∈ H.pins e, v ∈ H.nodes) (hew : ∀ e ∈ H.edges, 0 ≤ H.heWeight e) (hkn : base.k ≤ H.n)
    (hpart : ∀ v ∈ H.nodes, part v < base.k) (hne : ∀ b < base.k, ∃ v ∈ H.nodes, part v = b) (hs : Contract.Schedules H part s)
    (hd : ∀ S, 0 ≤ base.dist S) (hd1 : ∀ S, S.card ≤ 1 → base.dist S = 0) (hpk : ∀ u l, l ≠ [] → base.pick u l ∈ l)
    (hS : ∀ b < base.k, SeedOk (contractedCfg H part s buf fixed base) b) (imb : Assign → α) (eps : α) (ls : Bool) {order : List Nat}
    (ho : order.Perm (List.range base.k)) :
    ∃ (σ : Nat → Nat) (N : Nat), (∀ fuel ≥ N, ∃ part', mapPartition H part s buf fixed base imb eps ls fuel order = some part' ∧ ∀ v ∈ H.nodes, part' v = σ (part v)) ∧
      ((List.range base.k).map σ).Perm (List.range base.k) ∧
      H.toHG.steiner base.dist (fun v => some (σ (part v))) ≤ H.toHG.steiner base.dist (fun v => some (part v)) ∧
      (∀ b < base.k, H.toHG.blockWeight (fun v => some (σ (part v))) (σ b) = H.toHG.blockWeight (fun v => some (part v)) b) ∧
      (∀ v ∈ H.nodes, fixed v = true → σ (part v) = part v) ∧
      (imb (identity (contractedCfg H part s buf fixed base).toCfg) ≤ eps → ∀ order', order'.Perm (List.range base.k) → ∀ fuel ≥ N,
        mapPartition H part s buf fixed base imb eps ls fuel order' = mapPartition H part s buf fixed base imb eps ls fuel order) := by
  obtain ⟨hcid, hn⟩ := coarse_block (buf := buf) hkn hpart hne hs
  obtain ⟨rep, hres⟩ := contract_result (buf := buf) hR (fun v hv => lt_of_lt_of_le (hpart v hv) hkn) hs
  have hnodes : (contractedCfg H part s buf fixed base).H.nodes = List.range base.k := by
    show (Contract.contract H part s buf).1.nodes = _
    rw [hres.nodes, hn]
  have hw : (contractedCfg H part s buf fixed base).H.WF := hres.wf hR
  obtain ⟨Φ, N, h1, h2, h3, h4, -, -⟩ := mapBlocks_spec (c := contractedCfg H part s buf fixed base) hw hd (coarse_ew hres hew) hnodes hpk (fun _ _ _ => rfl)
    (fun v hv => hS v (by rw [hnodes] at hv; exact List.mem_range.mp hv)) imb eps ls order (by rw [hnodes]; exact ho)
  have hmem : ∀ b, b < base.k → b ∈ (contractedCfg H part s buf fixed base).H.nodes := fun b hb => by rw [hnodes]; exact List.mem_range.mpr hb
  have hblk : ∀ b < base.k, Φ b = some (blk Φ b) ∧ blk Φ b < base.k := by
    intro b hb
    obtain ⟨x, hx, hxb⟩ := h2.total b (hmem b hb)
    unfold blk
    rw [hxb]; exact ⟨rfl, hx⟩
  have hσinj : ∀ b < base.k, ∀ b' < base.k, blk Φ b = blk Φ b' → b = b' := by
    intro b hb b' hb' h
    apply h2.inj b (hmem b hb) b' (hmem b' hb')
    rw [(hblk b hb).1, (hblk b' hb').1, h]
  have hproj : ∀ Ψ : Assign, (contractedCfg H part s buf fixed base).H.steiner base.dist Ψ =
      H.toHG.steiner base.dist (fun v => Ψ ((Contract.contract H part s buf).2 v)) := fun Ψ => steiner_project hR hres hpn hd1 Ψ
  have hHcong : ∀ Ψ Ψ' : Assign, (∀ v ∈ H.nodes, Ψ v = Ψ' v) → H.toHG.steiner base.dist Ψ = H.toHG.steiner base.dist Ψ' := by
    intro Ψ Ψ' h
    unfold HG.steiner
    congr 1
    apply List.map_congr_left
    intro e he
    have : H.toHG.blocksOf Ψ e = H.toHG.blocksOf Ψ' e := by
      ext b
      rw [mem_blocksOf, mem_blocksOf]
      exact exists_congr (fun x => and_congr_right (fun hx => by rw [h x (hpn e he x hx)]))
    rw [this]
  refine ⟨blk Φ, N, ?_, ?_, ?_, ?_, ?_, ?_⟩
  · intro fuel hfu
    refine ⟨_, by unfold mapPartition; rw [h1 fuel hfu]; rfl, fun v hv => ?_⟩
    dsimp only
    rw [hcid v hv]
    by_cases h : blk Φ (part v) = part v
    · rw [if_pos h, h]
    · rw [if_neg h]
  · refine (List.subperm_of_subset ?_ ?_).perm_of_length_le ?_
    · rw [List.nodup_map_iff_inj_on List.nodup_range]
      intro b hb b' hb' h
      exact hσinj b (List.mem_range.mp hb) b' (List.mem_range.mp hb') h
    · intro x hx
      obtain ⟨b, hb, rfl⟩ := List.mem_map.mp hx
      exact List.mem_range.mpr (hblk b (List.mem_range.mp hb)).2
    · rw [List.length_map]
  · have e1 : H.toHG.steiner base.dist (fun v => some (blk Φ (part v))) = (contractedCfg H part s buf fixed base).H.steiner base.dist Φ := by
      rw [hproj]
      refine hHcong _ _ (fun v hv => ?_)
      rw [hcid v hv, (hblk _ (hpart v hv)).1]
    have e2 : H.toHG.steiner base.dist (fun v => some (part v)) =
        (contractedCfg H part s buf fixed base).H.steiner base.dist (identity (contractedCfg H part s buf fixed base).toCfg) := by
      rw [hproj]
      refine hHcong _ _ (fun v hv => ?_)
      rw [hcid v hv]
      exact (if_pos (hmem _ (hpart v hv))).symm
    rw [e1, e2]
    exact h3
  · intro b hb
    unfold HG.blockWeight
    congr 2
    apply List.filter_congr
    intro v hv
    have hv : v ∈ H.nodes := hv
    have : blk Φ (part v) = blk Φ b ↔ part v = b := ⟨fun h => hσinj _ (hpart v hv) b hb h, fun h => by rw [h]⟩
    simp [this]
  · intro v hv hf
    have := h2.fix (part v) (hmem _ (hpart v hv)) (List.any_eq_true.mpr ⟨v, hv, by rw [hf, hcid v hv]; simp⟩)
    unfold blk
    rw [this]; rfl
  · intro hb order' ho' fuel hfu
    unfold mapPartition
    rw [h1 fuel hfu, (h4 hb).2 order' (by rw [hnodes]; exact ho') fuel hfu]

/-- **C62** (choice). If the initial mapping is feasible, the result is feasible and at least as good as every feasible mapping that is computed for a seed node, and does not depend
on the order. If all mappings have the same infeasible imbalance, the initial mapping is kept, whatever their objectives are. -/
theorem C62_best_mapping {c : GCfg} (hw : c.H.WF) (hd : ∀ S, 0 ≤ c.dist S) (he : ∀ e ∈ c.H.edges, 0 ≤ c.H.ew e) (hn : c.H.nodes = List.range c.k)
    (hpk : ∀ u l, l ≠ [] → c.pick u l ∈ l) (hfb : ∀ v ∈ c.H.nodes, c.fixed v = true → c.fixedBlock v = v) (hS : ∀ v ∈ c.H.nodes, SeedOk c v) (imb : Assign → α)
    (eps : α) (ls : Bool) {order : List Nat} (ho : order.Perm c.H.nodes) :
    ∃ Φ N, (∀ fuel ≥ N, mapBlocks c imb eps ls fuel order = some Φ) ∧ (c.H.nodes.map Φ).Nodup ∧ (∀ v ∈ c.H.nodes, ∃ b < c.k, Φ v = some b) ∧
      c.H.steiner c.dist Φ ≤ c.H.steiner c.dist (identity c.toCfg) ∧
      (imb (identity c.toCfg) ≤ eps → imb Φ ≤ eps ∧
        (∀ v ∈ c.H.nodes, ∀ fuel ≥ N, ∃ Ψ, candidate c ls fuel v = some Ψ ∧ (imb Ψ ≤ eps → c.H.steiner c.dist Φ ≤ c.H.steiner c.dist Ψ)) ∧
        ∀ order', order'.Perm c.H.nodes → ∀ fuel ≥ N, mapBlocks c imb eps ls fuel order' = some Φ) ∧
      ((∀ Ψ : Assign, (c.H.nodes.map Ψ).Nodup → (∀ v ∈ c.H.nodes, ∃ b < c.k, Ψ v = some b) → imb Ψ = imb (identity c.toCfg)) → eps < imb (identity c.toCfg) → Φ = identity c.toCfg) := by
  obtain ⟨Φ, N, h1, h2, h3, h4, h5, h6⟩ := mapBlocks_spec hw hd he hn hpk hfb hS imb eps ls order ho
  have hnd : ∀ Ψ, CandOk c Ψ → (c.H.nodes.map Ψ).Nodup := fun Ψ h => by
    rw [List.nodup_map_iff_inj_on hw.nodes_nodup]
    exact fun v hv w hw' e => h.inj v hv w hw' e
  exact ⟨Φ, N, h1, hnd Φ h2, h2.total, h3, fun hb => ⟨(h4 hb).1, h5 hb, (h4 hb).2⟩, fun hall heps => h6 (fun Ψ hΨ => hall Ψ (hnd Ψ hΨ) hΨ.total) heps⟩

end

/-! ## Concrete cases -/

/-- three nodes, hyperedges {0,1} with weight 1, {0,2} with weight 4, {0,1,2} with weight 2 -/
def exH : HG where
  nodes := [0, 1, 2]
  edges := [0, 1, 2]
  pins := fun e => if e = 0 then [0, 1] else if e = 1 then [0, 2] else if e = 2 then [0, 1, 2] else []
  inc := fun v => if v = 0 then [0, 1, 2] else if v = 1 then [0, 2] else if v = 2 then [1, 2] else []
  nw := fun v => if v = 1 then 3 else 1
  ew := fun e => if e = 0 then 1 else if e = 1 then 4 else 2

/-- the target graph is the path 0 - 1 - 2 with edge weights 1 -/
def pathDist : Finset Nat → Int := fun S => if S = {0, 2} then 2 else ((S.card - 1 : Nat) : Int)

theorem pathDist_nonneg (S : Finset Nat) : 0 ≤ pathDist S := by
  unfold pathDist
  by_cases h : S = {0, 2}
  · rw [if_pos h]; decide
  · rw [if_neg h]; exact Int.natCast_nonneg _

theorem pathDist_small (S : Finset Nat) (h : S.card ≤ 1) : pathDist S = 0 := by
  unfold pathDist
  rw [if_neg]
  · have : S.card - 1 = 0 := by omega
    rw [this]; rfl
  · rintro rfl
    revert h; decide

def exC : GCfg where
  H := exH
  fixed := fun _ => false
  dist := pathDist
  indiv := false
  mx := fun p => if p = 2 then 5 else 1
  k := 3
  fixedBlock := fun v => v
  deg := fun p => if p = 1 then 2 else 1
  pick := fun _ l => l.headD 0

theorem exH_wf : exH.WF := by
  refine ⟨by decide, by decide, by decide, by decide, by decide, ?_⟩
  intro v hv e
  have hv' : v = 0 ∨ v = 1 ∨ v = 2 := by simpa [exH] using hv
  rcases hv' with rfl | rfl | rfl <;> constructor <;> intro h
  all_goals first
    | (have he : e ∈ exH.edges := by
        simp [exH] at h ⊢; try omega
       revert h; revert e; decide)
    | (have he := h.1; revert h; revert e; decide)

theorem exC_pick : ∀ (u : Nat) (l : List Nat), l ≠ [] → exC.pick u l ∈ l := by
  intro u l h
  cases l with
  | nil => exact absurd rfl h
  | cons a l => exact List.mem_cons_self

/-- C60: the identity has objective 13; the local search finds a mapping with objective 9, and the hypotheses of the theorem hold -/
theorem C60_run : (improve exC.toCfg 40 (fun v => if v < 3 then some v else none)).map (fun Φ => ([0, 1, 2].map Φ, exC.H.steiner exC.dist Φ)) =
      some ([some 1, some 2, some 0], 9) ∧
    exC.H.steiner exC.dist (fun v => if v < 3 then some v else none) = 13 ∧ exC.H.WF ∧ (∀ S, 0 ≤ exC.dist S) ∧ (∀ e ∈ exC.H.edges, 0 ≤ exC.H.ew e) := by
  refine ⟨by decide +kernel, by decide +kernel, exH_wf, pathDist_nonneg, by decide⟩

/-- C61: the greedy algorithm with seed node 1, and the hypotheses of the theorems -/
theorem C61_run : (greedy exC 20 1).map (fun Φ => ([0, 1, 2].map Φ, exC.H.steiner exC.dist Φ)) = some ([some 1, some 0, some 2], 9) ∧
    exC.H.WF ∧ exC.H.nodes.length = exC.k ∧ (∀ u l, l ≠ [] → exC.pick u l ∈ l) ∧ SeedOk exC 1 ∧ exC.dist ∅ = 0 :=
  ⟨by decide +kernel, exH_wf, rfl, exC_pick, seedOk_plain (fun _ => rfl) rfl 1, pathDist_small ∅ (by decide)⟩

/-- C62: the whole search on this instance improves the identity, for two orders of the critical sections -/
theorem C62_run : (mapBlocks exC (fun _ => (0 : Nat)) 0 true 60 [0, 1, 2]).map (fun Φ => ([0, 1, 2].map Φ, exC.H.steiner exC.dist Φ)) = some ([some 1, some 0, some 2], 9) ∧
    (mapBlocks exC (fun _ => (0 : Nat)) 0 true 60 [2, 0, 1]).map (fun Φ => ([0, 1, 2].map Φ)) = some [some 1, some 0, some 2] ∧ exC.H.nodes = List.range exC.k := by
  refine ⟨by decide +kernel, by decide +kernel, rfl⟩

/-- the partition for the hypergraph of C15 -/
def exPart : Nat → Nat := fun v => [0, 0, 1, 1, 2, 7].getD v 0

theorem exPart_sched : Contract.Schedules exSHG exPart exCSched := by
  have h1 : psum (Contract.mapping exPart exCSched.mark) exSHG.n = 3 := by decide
  unfold Contract.Schedules
  rw [h1]
  refine ⟨by decide, by decide, by decide, by decide, by decide, by decide, ?_, ?_, by decide, by decide, by decide⟩
  · intro c hc
    have : c = 0 ∨ c = 1 ∨ c = 2 := by omega
    rcases this with rfl | rfl | rfl <;> decide
  · intro c _
    show List.Perm [3, 2, 1, 0] (List.range (2 ^ 2))
    decide

/-- the hypotheses of `C62_initial_mapping` hold for a partition of the hypergraph of C15 into three blocks -/
example (buf : CBuf) : ∃ (σ : Nat → Nat) (N : Nat), ∀ fuel ≥ N, ∃ part', mapPartition exSHG exPart exCSched buf (fun _ => false) exC (fun _ => (0 : Nat)) 0 true fuel [1, 0, 2] = some part' ∧
    ∀ v ∈ exSHG.nodes, part' v = σ (exPart v) := by
  obtain ⟨σ, N, h, -⟩ := C62_initial_mapping (buf := buf) (fixed := fun _ => false) (base := exC) exSHG_rep (by decide) (by decide) (by decide) (by decide) (by decide) exPart_sched
    pathDist_nonneg pathDist_small exC_pick (fun b _ => seedOk_plain (c := contractedCfg exSHG exPart exCSched buf (fun _ => false) exC)
      (fun v => List.any_eq_false.mpr (fun x _ => by simp)) rfl b) (fun _ => (0 : Nat)) 0 true (order := [1, 0, 2]) (by decide)
  exact ⟨σ, N, h⟩

/-! ## Exceptions -/

/-- the instance with hyperedge {1,2} only; node 0 is fixed -/
def exFix : GCfg := { exC with H := HG.mk [0, 1, 2] [0] (fun e => if e = 0 then [1, 2] else []) (fun v => if v = 1 ∨ v = 2 then [0] else []) (fun _ => 1) (fun _ => 1), fixed := fun v => v == 0 }

/-- **C61**, the exception: a fixed seed node and no hyperedge with a fixed and a free node. The queue is empty after the fixed nodes are assigned, the main loop is not
entered, and the free nodes have no processor; because the objective of this "mapping" is 0 it is selected as the best one and is the result. -/
theorem C61_unassigned_witness : (greedy exFix 20 0).map (fun Φ => [0, 1, 2].map Φ) = some [some 0, none, none] ∧
    (mapBlocks exFix (fun _ => (0 : Nat)) 0 false 20 [0, 1, 2]).map (fun Φ => [0, 1, 2].map Φ) = some [some 0, none, none] := by
  refine ⟨by decide +kernel, by decide +kernel⟩

/-- one hyperedge {0,1}; node 1 has weight 3 -/
def exBalH : HG where
  nodes := [0, 1, 2]
  edges := [0]
  pins := fun e => if e = 0 then [0, 1] else []
  inc := fun v => if v = 0 ∨ v = 1 then [0] else []
  nw := fun v => if v = 1 then 3 else 1
  ew := fun _ => 1

/-- processor 0 has the smallest degree, processor 2 the largest limit -/
def exBal : GCfg where
  H := exBalH
  fixed := fun _ => false
  dist := pathDist
  indiv := true
  mx := fun p => if p = 2 then 5 else 1
  k := 3
  fixedBlock := fun v => v
  deg := fun p => if p = 0 then 1 else 2
  pick := fun _ l => l.headD 0

/-- **C61**, individual block weights: `best_is_balanced` is updated before it is tested (greedy_mapping.cpp:225-226), so a processor on which the node fits does not replace
a processor on which it does not fit. Node 1 (weight 3) is assigned to processor 1 (limit 1) although processor 2 (limit 5) is free. -/
theorem C61_unbalanced_witness : (greedy exBal 20 0).map (fun Φ => [0, 1, 2].map Φ) = some [some 0, some 1, some 2] ∧ exBal.mx 1 < exBal.H.nw 1 ∧ exBal.H.nw 1 ≤ exBal.mx 2 ∧
    exBal.H.nw 2 ≤ exBal.mx 1 := by
  refine ⟨by decide +kernel, by decide, by decide, by decide⟩

/-- **C61**, no processor is large enough for the seed node: `min_nodes[0]` of an empty vector (greedy_mapping.cpp:87-90). -/
theorem C61_no_processor_witness (fuel : Nat) : greedy { exBal with mx := fun _ => 2 } fuel 1 = none := by
  unfold greedy
  rw [if_neg (by decide), if_pos (by decide +kernel)]

/-- one hyperedge {0,1}; the distances of {0,1}, {0,2}, {1,2} are 3, 2, 1 -/
def exOrd : Cfg := { exC.toCfg with
  H := HG.mk [0, 1, 2] [0] (fun e => if e = 0 then [0, 1] else []) (fun v => if v = 0 ∨ v = 1 then [0] else []) (fun _ => 1) (fun _ => 1)
  dist := fun S => if S = {0, 1} then 3 else if S = {0, 2} then 2 else if S = {1, 2} then 1 else 0 }

/-- **C62**, the exception: if the initial mapping is infeasible, the result depends on the order of the critical sections, also in deterministic mode. -/
theorem C62_schedule_witness : ∃ (f : Nat → Assign) (imb : Assign → Nat) (eps : Nat),
    ([0, 1].foldl (fun b v => commit exOrd imb eps b v (f v)) (bestInit exOrd imb)).obj = 2 ∧ ([1, 0].foldl (fun b v => commit exOrd imb eps b v (f v)) (bestInit exOrd imb)).obj = 1 ∧
    exOrd.H.steiner exOrd.dist (identity exOrd) = 3 :=
  ⟨fun s v => if s = 0 then (if v = 0 then some 0 else if v = 1 then some 2 else if v = 2 then some 1 else none)
      else (if v = 0 then some 1 else if v = 1 then some 2 else if v = 2 then some 0 else none),
    fun Φ => if Φ 1 = some 1 then 3 else 2, 1, by decide +kernel, by decide +kernel, by decide +kernel⟩

end OneMap
end Verif
