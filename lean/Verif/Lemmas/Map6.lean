import Verif.Lemmas.Map5
/-! # Lemmas: reachable states of the greedy mapping, mapping of a partition -/
namespace Verif
namespace OneMap
open Contract

variable {c : GCfg} {α : Type} [LinearOrder α]

/-- the states of `greedy` at the beginning of the iterations of the main loop -/
inductive Reach (c : GCfg) (seed : Nat) : GSt → Prop
  | fixed : c.fixed seed = true → Reach c seed (preassign c)
  | free : c.fixed seed = false → (minProcs c (preassign c).un (c.H.nw seed)).2 ≠ [] →
      Reach c seed (checkAll c (assign c (preassign c) seed (c.pick seed (minProcs c (preassign c).un (c.H.nw seed)).2)))
  | step {g g' : GSt} : Reach c seed g → greedyStep c g = some g' → Reach c seed g'

theorem greedyLoop_reach {seed : Nat} : ∀ (n : Nat) (g g' : GSt), Reach c seed g → greedyLoop c n g = some g' → Reach c seed g'
  | 0, _, _, _, h => by cases h
  | n + 1, g, g', hg, h => by
    rw [greedyLoop] at h
    cases hs : greedyStep c g with
    | none => rw [hs] at h; injection h with h; rw [← h]; exact hg
    | some g1 => rw [hs] at h; exact greedyLoop_reach n g1 g' (Reach.step hg hs) h

theorem greedy_reach {seed n : Nat} {Φ : Assign} (h : greedy c n seed = some Φ) : ∃ g, Reach c seed g ∧ g.Φ = Φ := by
  unfold greedy at h
  by_cases hf : c.fixed seed = true
  · rw [if_pos hf] at h
    obtain ⟨g, hg, rfl⟩ := Option.map_eq_some_iff.mp h
    exact ⟨g, greedyLoop_reach n _ _ (Reach.fixed hf) hg, rfl⟩
  · rw [if_neg hf] at h
    by_cases hm : (minProcs c (preassign c).un (c.H.nw seed)).2 = []
    · rw [if_pos hm] at h; cases h
    · rw [if_neg hm] at h
      obtain ⟨g, hg, rfl⟩ := Option.map_eq_some_iff.mp h
      exact ⟨g, greedyLoop_reach n _ _ (Reach.free (by simpa using hf) hm) hg, rfl⟩

/-- one step: nothing changes or a node is assigned -/
theorem step_spec (hw : c.H.WF) (hk : c.H.nodes.length = c.k) (hpk : PickOk c) {g g' : GSt} (h : GInv c g)
    (hfx : ∀ v ∈ c.H.nodes, c.fixed v = true → g.Φ v ≠ none) (hs : greedyStep c g = some g') :
    GInv c g' ∧ (∀ v ∈ c.H.nodes, c.fixed v = true → g'.Φ v ≠ none) ∧
    (g'.Φ = g.Φ ∨ ∃ u ∈ c.H.nodes, ∃ rest, c.fixed u = false ∧ g.Φ u = none ∧ g'.Φ = g.Φ.put u (chosen c { g with pq := rest } u)) := by
  unfold greedyStep at hs
  cases hq : popG g.pq with
  | none => rw [hq] at hs; cases hs
  | some x =>
    obtain ⟨m, rest⟩ := x
    rw [hq] at hs
    dsimp only at hs
    have hp := popG_spec hq
    have hm := h.pq m (hp.symm.subset List.mem_cons_self)
    have hI : GInv c { g with pq := rest } := ⟨h.upd, h.out, h.lt, h.un, h.inj, h.fix, fun x hx => h.pq x (hp.symm.subset (List.mem_cons_of_mem _ hx))⟩
    by_cases hu : g.upd m.2 = false
    · rw [if_pos hu] at hs
      injection hs with hs
      obtain ⟨c1, -, c3, -, -⟩ := checkAll_spec hI hfx
      rw [← hs]
      exact ⟨c1, fun v hv hf => by rw [c3]; exact hfx v hv hf, Or.inl c3⟩
    · rw [if_neg hu] at hs
      injection hs with hs
      have hun : g.Φ m.2 = none := by
        by_contra hh
        exact hu ((h.upd m.2 hm.1).mpr hh)
      have hA := assign_inv hw hI hm.1 (p := chosen c { g with pq := rest } m.2) hun
        (chosen_un (g := { g with pq := rest }) hpk (free_ne hw hk hI hm.1 hun) m.2) (fun hf => by rw [hm.2] at hf; cases hf)
      have hΦ := (assign_spec hw { g with pq := rest } (p := chosen c { g with pq := rest } m.2) hm.1).1
      have hf' : ∀ v ∈ c.H.nodes, c.fixed v = true → (assign c { g with pq := rest } m.2 (chosen c { g with pq := rest } m.2)).Φ v ≠ none := by
        intro v hv hf
        rw [hΦ]
        show (if v = m.2 then _ else g.Φ v) ≠ none
        by_cases hvm : v = m.2
        · rw [if_pos hvm]; simp
        · rw [if_neg hvm]; exact hfx v hv hf
      obtain ⟨c1, -, c3, -, -⟩ := checkAll_spec hA hf'
      rw [← hs]
      exact ⟨c1, fun v hv hf => by rw [c3]; exact hf' v hv hf, Or.inr ⟨m.2, hm.1, rest, hm.2, hun, by rw [c3, hΦ]⟩⟩

theorem reach_inv (hw : c.H.WF) (hk : c.H.nodes.length = c.k) (hpk : PickOk c) (hF : FixOk c) {seed : Nat} (hsd : seed ∈ c.H.nodes) {g : GSt} (h : Reach c seed g) :
    GInv c g ∧ ∀ v ∈ c.H.nodes, c.fixed v = true → g.Φ v ≠ none := by
  obtain ⟨p1, p2, -⟩ := preassign_spec hw hF
  induction h with
  | fixed _ => exact ⟨p1, fun v hv hf => (p2 v hv).mpr hf⟩
  | free hf hne =>
    have hn : (preassign c).Φ seed = none := by
      by_contra hh
      rw [(p2 seed hsd).mp hh] at hf; cases hf
    have hpi := minProcs_sub _ (hpk seed _ hne)
    have hA := assign_inv hw p1 hsd hn hpi.1 (fun h => by rw [h] at hf; cases hf)
    have hΦ := (assign_spec hw (preassign c) (p := c.pick seed (minProcs c (preassign c).un (c.H.nw seed)).2) hsd).1
    have hf' : ∀ v ∈ c.H.nodes, c.fixed v = true → (assign c (preassign c) seed (c.pick seed (minProcs c (preassign c).un (c.H.nw seed)).2)).Φ v ≠ none := by
      intro v hv hvf
      rw [hΦ]
      show (if v = seed then _ else (preassign c).Φ v) ≠ none
      by_cases hvs : v = seed
      · rw [if_pos hvs]; simp
      · rw [if_neg hvs]; exact (p2 v hv).mpr hvf
    obtain ⟨c1, -, c3, -, -⟩ := checkAll_spec hA hf'
    exact ⟨c1, fun v hv hvf => by rw [c3]; exact hf' v hv hvf⟩
  | step _ hs ih => exact ⟨(step_spec hw hk hpk ih.1 ih.2 hs).1, (step_spec hw hk hpk ih.1 ih.2 hs).2.1⟩

/-! ### mapping of the contracted hypergraph -/

theorem identity_ok (hn : c.H.nodes = List.range c.k) (hfb : ∀ v ∈ c.H.nodes, c.fixed v = true → c.fixedBlock v = v) : CandOk c (identity c.toCfg) where
  total := fun v hv => ⟨v, by rw [hn] at hv; exact List.mem_range.mp hv, if_pos hv⟩
  inj := fun v hv w hw h => by
    unfold identity at h
    rw [if_pos hv, if_pos hw] at h
    injection h
  fix := fun v hv hf => by rw [hfb v hv hf]; exact if_pos hv
  out := fun v hv => if_neg hv

theorem mapBlocks_spec (hw : c.H.WF) (hd : ∀ S, 0 ≤ c.dist S) (he : ∀ e ∈ c.H.edges, 0 ≤ c.H.ew e) (hn : c.H.nodes = List.range c.k) (hpk : PickOk c)
    (hfb : ∀ v ∈ c.H.nodes, c.fixed v = true → c.fixedBlock v = v) (hS : ∀ v ∈ c.H.nodes, SeedOk c v) (imb : Assign → α) (eps : α) (ls : Bool)
    (order : List Nat) (ho : order.Perm c.H.nodes) :
    ∃ Φ N, (∀ fuel ≥ N, mapBlocks c imb eps ls fuel order = some Φ) ∧ CandOk c Φ ∧ c.H.steiner c.dist Φ ≤ c.H.steiner c.dist (identity c.toCfg) ∧
      (imb (identity c.toCfg) ≤ eps → imb Φ ≤ eps ∧ ∀ order', order'.Perm c.H.nodes → ∀ fuel ≥ N, mapBlocks c imb eps ls fuel order' = some Φ) ∧
      (imb (identity c.toCfg) ≤ eps → ∀ v ∈ c.H.nodes, ∀ fuel ≥ N, ∃ Ψ, candidate c ls fuel v = some Ψ ∧ (imb Ψ ≤ eps → c.H.steiner c.dist Φ ≤ c.H.steiner c.dist Ψ)) ∧
      ((∀ Φ, CandOk c Φ → imb Φ = imb (identity c.toCfg)) → eps < imb (identity c.toCfg) → Φ = identity c.toCfg) := by
  have hk : c.H.nodes.length = c.k := by rw [hn, List.length_range]
  have hF : FixOk c := ⟨fun v hv hf => by rw [hfb v hv hf]; rw [hn] at hv; exact List.mem_range.mp hv,
    fun v hv w hw' hf hg h => by rw [hfb v hv hf, hfb w hw' hg] at h; exact h⟩
  obtain ⟨f, N, hf⟩ := candidates_spec hw hd he hk hpk hF ls hS c.H.nodes (fun _ h => h)
  have hsearch : ∀ o : List Nat, o.Perm c.H.nodes → ∀ fuel ≥ N, search c imb eps ls fuel o =
      some (o.foldl (fun b v => commit c.toCfg imb eps b v (f v)) (bestInit c.toCfg imb)) := by
    intro o hop fuel hfu
    exact search_eq _ (fun v hv => (hf v (hop.subset hv)).2 fuel hfu)
  have hid := identity_ok hn hfb
  have hbok : ∀ o : List Nat, o.Perm c.H.nodes → CandOk c (o.foldl (fun b v => commit c.toCfg imb eps b v (f v)) (bestInit c.toCfg imb)).map ∧
      (o.foldl (fun b v => commit c.toCfg imb eps b v (f v)) (bestInit c.toCfg imb)).imb = imb (o.foldl (fun b v => commit c.toCfg imb eps b v (f v)) (bestInit c.toCfg imb)).map := by
    intro o hop
    rcases best_mem c.toCfg (imb := imb) (eps := eps) (f := f) o (bestInit c.toCfg imb) with e | ⟨v, hv, e⟩
    · rw [e]; exact ⟨hid, rfl⟩
    · rw [e]; exact ⟨(hf v (hop.subset hv)).1, rfl⟩
  refine ⟨_, N, fun fuel hfu => by unfold mapBlocks; rw [hsearch order ho fuel hfu]; rfl, ?_, ?_, ?_, ?_, ?_⟩
  · dsimp only
    by_cases h : c.H.steiner c.dist (order.foldl (fun b v => commit c.toCfg imb eps b v (f v)) (bestInit c.toCfg imb)).map < c.H.steiner c.dist (identity c.toCfg)
    · rw [if_pos h]; exact (hbok order ho).1
    · rw [if_neg h]; exact hid
  · dsimp only
    by_cases h : c.H.steiner c.dist (order.foldl (fun b v => commit c.toCfg imb eps b v (f v)) (bestInit c.toCfg imb)).map < c.H.steiner c.dist (identity c.toCfg)
    · rw [if_pos h]; exact le_of_lt h
    · rw [if_neg h]
  · intro hb
    constructor
    · dsimp only
      by_cases h : c.H.steiner c.dist (order.foldl (fun b v => commit c.toCfg imb eps b v (f v)) (bestInit c.toCfg imb)).map < c.H.steiner c.dist (identity c.toCfg)
      · rw [if_pos h, ← (hbok order ho).2]
        exact (best_min c.toCfg (imb := imb) (eps := eps) (f := f) order (bestInit c.toCfg imb) hb).2.1
      · rw [if_neg h]; exact hb
    · intro order' ho' fuel hfu
      unfold mapBlocks
      rw [hsearch order' ho' fuel hfu, best_order c.toCfg (ho'.trans ho.symm) hb]
      rfl
  · intro hb v hv fuel hfu
    refine ⟨f v, (hf v hv).2 fuel hfu, fun hvb => ?_⟩
    have hkey := (best_min c.toCfg (imb := imb) (eps := eps) (f := f) order (bestInit c.toCfg imb) hb).2.2 v (ho.symm.subset hv) hvb
    have hobj : (order.foldl (fun b v => commit c.toCfg imb eps b v (f v)) (bestInit c.toCfg imb)).obj ≤ c.H.steiner c.dist (f v) := by
      unfold key at hkey
      rw [Prod.Lex.toLex_le_toLex] at hkey
      rcases hkey with h | h
      · exact le_of_lt h
      · exact le_of_eq h.1
    have hob : (order.foldl (fun b v => commit c.toCfg imb eps b v (f v)) (bestInit c.toCfg imb)).obj =
        c.H.steiner c.dist (order.foldl (fun b v => commit c.toCfg imb eps b v (f v)) (bestInit c.toCfg imb)).map := by
      rcases best_mem c.toCfg (imb := imb) (eps := eps) (f := f) order (bestInit c.toCfg imb) with e | ⟨v, -, e⟩
      · rw [e]; rfl
      · rw [e]; rfl
    rw [hob] at hobj
    dsimp only
    by_cases h : c.H.steiner c.dist (order.foldl (fun b v => commit c.toCfg imb eps b v (f v)) (bestInit c.toCfg imb)).map < c.H.steiner c.dist (identity c.toCfg)
    · rw [if_pos h]; exact hobj
    · rw [if_neg h]; exact le_trans (not_lt.mp h) hobj
  · intro hall heps
    have := best_stuck c.toCfg (imb := imb) (eps := eps) (f := f) order (fun v hv => hall _ (hf v (ho.subset hv)).1) heps
    rw [this]
    exact if_neg (lt_irrefl _)

theorem steiner_congr {H : HG} (hw : H.WF) {dist : Finset Nat → Int} {Φ Ψ : Assign} (h : ∀ v ∈ H.nodes, Φ v = Ψ v) : H.steiner dist Φ = H.steiner dist Ψ := by
  unfold HG.steiner
  congr 1
  apply List.map_congr_left
  intro e he
  have : H.blocksOf Φ e = H.blocksOf Ψ e := by
    ext b
    rw [mem_blocksOf, mem_blocksOf]
    exact exists_congr (fun x => and_congr_right (fun hx => by rw [h x (hw.pins_mem e he x hx)]))
  rw [this]

end OneMap
end Verif
