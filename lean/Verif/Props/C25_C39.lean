import Verif.Lemmas.Steiner10
import Mathlib.Tactic.IntervalCases
/-!
# C25, C39: distances in the target graph

Specification: `Spec/Steiner.lean` (`IsDist`, `IsSteiner`, `IsSpanning`, `IsCompletion`).
`Represents arcs G`: the stored directed edges are both directions of the edges of the simple graph `G`.
-/
namespace Verif.Steiner
open Verif.WGraph
open Relation

/-! ## The precomputation -/

/-- the connectivity test of `precomputeDistances` decides connectivity of the target graph -/
theorem C25_connectivity_test {G : WGraph} (hG : G.WF) (hn : 0 < G.n) {arcs : List Arc} (hr : Represents arcs G) :
    isConnected G.n arcs = true ↔ G.Connected := isConnected_graph hG hn hr

/-- exactly the disconnected target graphs are rejected as invalid input -/
theorem C25_rejects_disconnected {G : WGraph} (hG : G.WF) (hn : 0 < G.n) {arcs : List Arc} (hr : Represents arcs G) {s : Nat} (hs : 2 ≤ s) :
    precomputeDistances G.n arcs s = .invalidInput ↔ ¬ G.Connected := by
  rw [← isConnected_graph hG hn hr]
  unfold precomputeDistances
  rw [if_neg (by omega)]
  cases hcon : isConnected G.n arcs with
  | false => simp
  | true =>
    simp only [Bool.not_true, Bool.false_eq_true, if_false]
    split <;> simp

/-- what a successful precomputation guarantees -/
theorem ok_spec {G : WGraph} (hG : G.WF) (hn : 2 ≤ G.n) (hw : G.weight G.edges < kInvalid) {arcs : List Arc}
    (hr : Represents arcs G) {s : Nat} (hsn : s ≤ G.n + 1) {A : Table} (h : precomputeDistances G.n arcs s = .ok A) :
    2 ≤ s ∧ G.Connected ∧ G.n < 2 ^ 64 ∧ A = precompute G.n arcs s ∧ Snd G A ∧ Cmp G s A ∧ G.n ^ s ≤ 100000000 := by
  unfold precomputeDistances at h
  split at h
  · cases h
  · rename_i hs
    split at h
    · cases h
    · rename_i hcon
      split at h
      · cases h
      · rename_i hmem
        cases h
        have hc : G.Connected := (isConnected_graph hG (by omega) hr).1 (by simpa using hcon)
        have hs2 : 2 ≤ s := by omega
        have hn64 : G.n < 2 ^ 64 := by
          have : G.n ^ 1 ≤ G.n ^ s := Nat.pow_le_pow_right (by omega) (by omega)
          rw [pow_one] at this
          have : (100000000 : Nat) < 2 ^ 64 := by norm_num
          omega
        obtain ⟨h1, h2⟩ := compute_spec hG hn hn64 hc hw hr hs2 hsn
        exact ⟨hs2, hc, hn64, rfl, h1, h2, by omega⟩

/-- **C25**: for every nonempty set of at most `s` blocks, the distance is the minimum weight of a
connected subgraph of the target graph that contains the blocks, whatever the state of the cache and the
scratch memory -/
theorem C25_steiner_distance {G : WGraph} (hG : G.WF) (hn : 2 ≤ G.n) (hw : G.weight G.edges < kInvalid) {arcs : List Arc}
    (hr : Represents arcs G) {s : Nat} (hsn : s ≤ G.n + 1) {A : Table} (h : precomputeDistances G.n arcs s = .ok A)
    {X : Finset Nat} (hne : X.Nonempty) (hX : ∀ x ∈ X, x < G.n) (hs : X.card ≤ s) (c : Cache) (d : MSTData) :
    G.IsSteiner X (distanceSet G.n A s X c d).1 := by
  obtain ⟨_, _, _, _, h1, h2, _⟩ := ok_spec hG hn hw hr hsn h
  unfold distanceSet
  rw [if_pos (by rw [bitsOf_length hX]; exact hs)]
  exact h1.steiner h2 hne hX hs

/-- **C25**: the distance of two blocks, in both orders, is the shortest path length -/
theorem C25_shortest_path {G : WGraph} (hG : G.WF) (hn : 2 ≤ G.n) (hw : G.weight G.edges < kInvalid) {arcs : List Arc}
    (hr : Represents arcs G) {s : Nat} (hsn : s ≤ G.n + 1) {A : Table} (h : precomputeDistances G.n arcs s = .ok A)
    {i j : Nat} (hi : i < G.n) (hj : j < G.n) : G.IsDist i j (A (idx2 G.n i j)) := by
  obtain ⟨_, _, _, _, h1, _, _⟩ := ok_spec hG hn hw hr hsn h
  exact h1.dist i hi j hj

/-- the distance of at most one block is 0 -/
theorem C25_trivial_sets {G : WGraph} (hG : G.WF) (hn : 2 ≤ G.n) (hw : G.weight G.edges < kInvalid) {arcs : List Arc}
    (hr : Represents arcs G) {s : Nat} (hsn : s ≤ G.n + 1) {A : Table} (h : precomputeDistances G.n arcs s = .ok A)
    {X : Finset Nat} (hX : ∀ x ∈ X, x < G.n) (hs : X.card ≤ 1) (c : Cache) (d : MSTData) : (distanceSet G.n A s X c d).1 = 0 := by
  obtain ⟨hs2, _, _, _, h1, _, _⟩ := ok_spec hG hn hw hr hsn h
  unfold distanceSet
  rw [if_pos (by rw [bitsOf_length hX]; omega)]
  have hd : ∀ a < G.n, A (idx2 G.n a a) = 0 := fun a ha => by
    have := h1.dist a ha a ha
    have h2 := this.2 0 (.nil a)
    have h3 := Walk.nonneg hG this.1
    omega
  dsimp only
  rcases Finset.card_le_one_iff_subset_singleton.1 hs with ⟨a, ha⟩
  rcases Finset.subset_singleton_iff.1 ha with rfl | rfl
  · have : setIdx G.n ∅ = idx2 G.n 0 0 := by
      unfold setIdx bitsOf idx2; simp
    rw [this]; exact hd 0 (by omega)
  · rw [setIdx_single hn (hX a (by simp))]; exact hd a (hX a (by simp))

/-- all accesses to the table are in bounds (the table has `k^s` entries) and different nonempty sets use
different entries -/
theorem C25_table_index {k s : Nat} (hk : 2 ≤ k) (hs : 2 ≤ s) :
    (∀ X : Finset Nat, (∀ x ∈ X, x < k) → X.card ≤ s → setIdx k X < k ^ s) ∧
    (∀ X Y : Finset Nat, (∀ x ∈ X, x < k) → (∀ x ∈ Y, x < k) → X.Nonempty → Y.Nonempty → X.card ≤ s → Y.card ≤ s →
      setIdx k X = setIdx k Y → X = Y) :=
  ⟨fun _ hX hc => setIdx_lt hk hs hX hc, fun _ _ hX hY hXn hYn _ _ h => setIdx_inj hk hX hY hXn hYn h⟩

/-- the set enumerator visits every set of `m` blocks exactly once and ends -/
theorem C25_set_enumerator {n m : Nat} (hn64 : n < 2 ^ 64) (hn0 : 0 < n) (hm : m ≤ n) :
    (enumLoop n m (n ^ m + 1) (SetIter.first n m)).2 = true ∧ (setEnum n m).Nodup ∧
    ∀ D, D ∈ setEnum n m ↔ (∀ x ∈ D, x < n) ∧ D.card = m := setEnum_spec hn64 hn0 hm

/-- the subset enumerator visits the proper nonempty subsets -/
theorem C25_subset_enumerator {n : Nat} {D : Finset Nat} (hD : ∀ x ∈ D, x < n) (E : Finset Nat) :
    E ∈ subsetEnum n D ↔ E ⊆ D ∧ E ≠ ∅ ∧ E ≠ D := mem_subsetEnum hD

/-- no addition of the precomputation overflows: in 32-bit arithmetic the same table results, as long
as no edge is heavier than `kInvalidDistance` -/
theorem C25_no_overflow {n : Nat} (hn0 : 0 < n) (hn64 : n < 2 ^ 64) {s : Nat} (hs : s ≤ n + 1) {arcs : List Arc}
    (hw : ∀ a ∈ arcs, 0 ≤ a.2.2 ∧ a.2.2 ≤ kInvalid) : precompute32 n arcs s = precompute n arcs s :=
  (precompute32_eq hn0 hn64 hs hw).1

/-! ### Limits of the code -/

/-- the enumerator never ends if the requested set size exceeds the number of blocks -/
theorem C25_enumerator_diverges {n m : Nat} (hn0 : 0 < n) (hn64 : n < 2 ^ 64) (hm : n < m) (fuel : Nat) :
    (enumLoop n m fuel (SetIter.first n m)).2 = false := by
  refine enumLoop_diverges hn0 hn64 hm fuel _ ?_
  show (List.map (fun i => m - 1 - i) (List.range m)).Pairwise (· > ·)
  rw [List.pairwise_iff_getElem]
  intro i j hi hj hij
  simp only [List.getElem_map, List.getElem_range]
  simp only [List.length_map, List.length_range] at hi hj
  omega

/-- ... which happens when the API metric `mt_kahypar_steiner_tree` initialises a target graph with two
blocks: its bound 4 makes the algorithm enumerate sets of size 3 -/
theorem C25_api_two_blocks : 3 < apiBound ∧ ∀ fuel, (enumLoop 2 3 fuel (SetIter.first 2 3)).2 = false :=
  ⟨by decide, fun fuel => C25_enumerator_diverges (by decide) (by decide) (by decide) fuel⟩

/-- for at least three blocks the bound of the API is admissible -/
theorem C25_api_bound {n : Nat} (hn : 3 ≤ n) : apiBound ≤ n + 1 := by unfold apiBound; omega

/-- the bound used by the partitioner is always admissible, but it is smaller than 2 (and the assertion
in `precomputeDistances` fails) if no hyperedge has two pins -/
theorem C25_partitioner_bound (mx k me : Nat) : partitionerBound mx k me ≤ k + 1 ∧
    (me < 2 → ∀ arcs, precomputeDistances k arcs (partitionerBound mx k me) = .assertion) := by
  constructor
  · unfold partitionerBound; omega
  · intro h arcs
    unfold precomputeDistances
    rw [if_pos (by unfold partitionerBound; omega)]

/-- parallel edges of the target graph: the last one counts, not the lightest one -/
theorem C25_parallel_edges : precompute 2 [(0, 1, 1), (1, 0, 1), (0, 1, 5), (1, 0, 5)] 2 (idx2 2 0 1) = 5 := by decide +kernel

/-- a self loop makes the distance of a block to itself positive -/
theorem C25_self_loop : precompute 2 [(0, 0, 7), (0, 1, 1), (1, 0, 1)] 2 (idx2 2 0 0) = 2 := by decide +kernel

/-! ## C39: larger sets -/

/-- what a request must return -/
def Correct (G : WGraph) (s : Nat) (X : Finset Nat) (v : Int) : Prop :=
  if X.card ≤ s then (X.Nonempty → G.IsSteiner X v) ∧ (X = ∅ → v = 0)
  else ∀ M, G.IsCompletion X M → M.IsSpanning X v

/-- the completion exists -/
theorem exists_completion {G : WGraph} {A : Table} (hA : Snd G A) {X : Finset Nat} (hX : ∀ x ∈ X, x < G.n) : ∃ M, G.IsCompletion X M := by
  refine ⟨⟨G.n, (X ×ˢ X).filter (fun e => e.1 < e.2), fun e => A (idx2 G.n e.1 e.2)⟩, rfl, ?_, ?_⟩
  · intro a b; simp [and_assoc]
  · intro a ha b hb _; exact hA.dist a (hX a ha) b (hX b hb)

/-- **C39**: the weight computed for a set of any size is the weight of a minimum spanning tree of the
metric completion, the loop ends, and the scratch memory is clean for the next call -/
theorem C39_spanning_tree {G : WGraph} (hG : G.WF) (hn : 2 ≤ G.n) (hw : G.weight G.edges < kInvalid) {arcs : List Arc}
    (hr : Represents arcs G) {s : Nat} (hsn : s ≤ G.n + 1) {A : Table} (h : precomputeDistances G.n arcs s = .ok A)
    {X : Finset Nat} (hne : X.Nonempty) (hX : ∀ x ∈ X, x < G.n) {d : MSTData} (hd : d.rem = ∅ ∧ d.pq = []) {M : WGraph} (hM : G.IsCompletion X M) :
    M.IsSpanning X (mstWeight G.n A X d).2 ∧ (mstWeight G.n A X d).1.rem = ∅ ∧ (mstWeight G.n A X d).1.pq = [] := by
  obtain ⟨_, hc, _, _, h1, _, _⟩ := ok_spec hG hn hw hr hsn h
  have hA := matOf hG hc hw h1 hM hX
  have := mstWeight_spec hA hne hd.1 hd.2
  rw [hM.n] at this
  exact this

/-- **C39**: it is a 2-approximation of the Steiner tree weight -/
theorem C39_two_approximation {G : WGraph} (hG : G.WF) (hn : 2 ≤ G.n) (hw : G.weight G.edges < kInvalid) {arcs : List Arc}
    (hr : Represents arcs G) {s : Nat} (hsn : s ≤ G.n + 1) {A : Table} (h : precomputeDistances G.n arcs s = .ok A)
    {X : Finset Nat} (hne : X.Nonempty) (hX : ∀ x ∈ X, x < G.n) {d : MSTData} (hd : d.rem = ∅ ∧ d.pq = []) {o : Int} (ho : G.IsSteiner X o) :
    o ≤ (mstWeight G.n A X d).2 ∧ (mstWeight G.n A X d).2 ≤ 2 * o := by
  obtain ⟨_, _, _, _, h1, _, _⟩ := ok_spec hG hn hw hr hsn h
  obtain ⟨M, hM⟩ := exists_completion h1 hX
  exact spanning_approx hG hM hX hne (C39_spanning_tree hG hn hw hr hsn h hne hX hd hM).1 ho

/-- the weight fits into `HyperedgeWeight` -/
theorem C39_no_overflow {G : WGraph} (hG : G.WF) (hn : 2 ≤ G.n) (hw : G.weight G.edges < kInvalid) {arcs : List Arc}
    (hr : Represents arcs G) {s : Nat} (hsn : s ≤ G.n + 1) {A : Table} (h : precomputeDistances G.n arcs s = .ok A)
    {X : Finset Nat} (hne : X.Nonempty) (hX : ∀ x ∈ X, x < G.n) {d : MSTData} (hd : d.rem = ∅ ∧ d.pq = []) :
    0 ≤ (mstWeight G.n A X d).2 ∧ (mstWeight G.n A X d).2 < 2 ^ 31 := by
  obtain ⟨_, hc, _, _, h1, _, _⟩ := ok_spec hG hn hw hr hsn h
  obtain ⟨M, hM⟩ := exists_completion h1 hX
  have hM' := IsCompletion.wf hG hM hX
  have hsp := (C39_spanning_tree hG hn hw hr hsn h hne hX hd hM).1
  have hk := kInvalid_val
  obtain ⟨r, hr'⟩ := hne
  constructor
  · obtain ⟨S, s1, s2⟩ := hsp.1
    rw [← s2]; exact weight_nonneg hM' s1.edges
  · have hU := ConnSub.whole hG hc
    obtain ⟨w, t1, t2⟩ := exists_tree hG hU (Finset.mem_range.2 (hX r hr'))
    obtain ⟨l, l1, l2⟩ := t1.tour
    have l3 := l1.sublist (List.filter_sublist (l := l) (p := fun x => decide (x ∈ X)))
    have s1 := l3.path hG hM hX (fun x hx => by simpa using (List.mem_filter.1 hx).2) hr'
    have s2 : Sol M X (2 * w) := by
      refine s1.mono ?_ (le_refl _)
      intro x hx
      exact Finset.mem_insert_of_mem (List.mem_toFinset.2 (List.mem_filter.2
        ⟨l2 x (Finset.mem_range.2 (hX x hx)), by simpa using hx⟩))
    obtain ⟨S2, s3, s4⟩ := completion_sol_spanning hM ⟨r, hr'⟩ s2
    have := hsp.2 S2 s3
    omega

/-! ### Concurrent requests and the cache -/

/-- shared cache; scratch memory and program counter of each thread -/
structure Sys where
  cache : Cache
  scratch : Nat → MSTData
  pc : Nat → DistPC

/-- one atomic step of thread `t`, or thread `t` (which has finished its last request) issues a request
for a set of blocks -/
inductive SysStep (n : Nat) (A : Table) (s : Nat) : Sys → Sys → Prop where
  | run (x : Sys) (t : Nat) :
      SysStep n A s x ⟨(distStep n A s x.cache (x.scratch t) (x.pc t)).1,
        Function.update x.scratch t (distStep n A s x.cache (x.scratch t) (x.pc t)).2.1,
        Function.update x.pc t (distStep n A s x.cache (x.scratch t) (x.pc t)).2.2⟩
  | request (x : Sys) (t : Nat) (X Y : Finset Nat) (v : Int) : x.pc t = .done Y v → (∀ b ∈ X, b < n) →
      SysStep n A s x ⟨x.cache, x.scratch, Function.update x.pc t (.find X)⟩

/-- initially the cache is empty, the scratch memory is clean and every thread starts with a request -/
structure SysInit (n : Nat) (x : Sys) : Prop where
  cache : ∀ key, x.cache key = none
  clean : ∀ t, (x.scratch t).rem = ∅ ∧ (x.scratch t).pq = []
  start : ∀ t, ∃ X, x.pc t = .find X ∧ ∀ b ∈ X, b < n

structure SysInv (G : WGraph) (s : Nat) (x : Sys) : Prop where
  cache : ∀ key v, x.cache key = some v → ∃ X : Finset Nat, (∀ b ∈ X, b < G.n) ∧ setHash G.n X = key ∧ s < X.card ∧ Correct G s X v
  clean : ∀ t, (x.scratch t).rem = ∅ ∧ (x.scratch t).pq = []
  pc : ∀ t, match x.pc t with
    | .find X => ∀ b ∈ X, b < G.n
    | .insert X v => (∀ b ∈ X, b < G.n) ∧ s < X.card ∧ Correct G s X v
    | .done X v => (∀ b ∈ X, b < G.n) ∧ Correct G s X v

theorem SysInv.step {G : WGraph} (hG : G.WF) (hn : 2 ≤ G.n) (hn64 : G.n ≤ 64) (hw : G.weight G.edges < kInvalid) {arcs : List Arc}
    (hr : Represents arcs G) {s : Nat} (hsn : s ≤ G.n + 1) {A : Table} (h : precomputeDistances G.n arcs s = .ok A)
    {x y : Sys} (hI : SysInv G s x) (hstep : SysStep G.n A s x y) : SysInv G s y := by
  cases hstep with
  | request t X Y v hpc hX =>
    refine ⟨hI.cache, hI.clean, fun t' => ?_⟩
    dsimp only
    by_cases ht : t' = t
    · subst ht; rw [Function.update_self]; exact hX
    · rw [Function.update_of_ne ht]; exact hI.pc t'
  | run t =>
    have hpcs : ∀ (p : DistPC), (match p with
        | .find X => ∀ b ∈ X, b < G.n
        | .insert X v => (∀ b ∈ X, b < G.n) ∧ s < X.card ∧ Correct G s X v
        | .done X v => (∀ b ∈ X, b < G.n) ∧ Correct G s X v) →
        (match (Function.update x.pc t p) t with
        | .find X => ∀ b ∈ X, b < G.n
        | .insert X v => (∀ b ∈ X, b < G.n) ∧ s < X.card ∧ Correct G s X v
        | .done X v => (∀ b ∈ X, b < G.n) ∧ Correct G s X v) := by
      intro p hp; rw [Function.update_self]; exact hp
    have fin : ∀ (c : Cache) (d : MSTData) (p : DistPC),
        (∀ key v, c key = some v → ∃ X : Finset Nat, (∀ b ∈ X, b < G.n) ∧ setHash G.n X = key ∧ s < X.card ∧ Correct G s X v) →
        (d.rem = ∅ ∧ d.pq = []) → (match p with
        | .find X => ∀ b ∈ X, b < G.n
        | .insert X v => (∀ b ∈ X, b < G.n) ∧ s < X.card ∧ Correct G s X v
        | .done X v => (∀ b ∈ X, b < G.n) ∧ Correct G s X v) →
        SysInv G s ⟨c, Function.update x.scratch t d, Function.update x.pc t p⟩ := by
      intro c d p hc hd hp
      refine ⟨hc, fun t' => ?_, fun t' => ?_⟩
      · dsimp only
        by_cases ht : t' = t
        · subst ht; rw [Function.update_self]; exact hd
        · rw [Function.update_of_ne ht]; exact hI.clean t'
      · dsimp only
        by_cases ht : t' = t
        · subst ht; rw [Function.update_self]; cases p <;> exact hp
        · rw [Function.update_of_ne ht]
          have := hI.pc t'
          cases hq : x.pc t' <;> rw [hq] at this <;> exact this
    have hpc := hI.pc t
    have hcl := hI.clean t
    cases hp : x.pc t with
    | done X v =>
      rw [hp] at hpc
      rw [hp] at *
      exact fin x.cache (x.scratch t) (.done X v) hI.cache hcl hpc
    | insert X v =>
      rw [hp] at hpc
      refine fin _ _ _ ?_ hcl ⟨hpc.1, hpc.2.2⟩
      intro key v' hk
      change (Cache.ins x.cache (setHash G.n X) v) key = some v' at hk
      unfold Cache.ins at hk
      cases hc : x.cache (setHash G.n X) with
      | some w => rw [hc] at hk; exact hI.cache key v' hk
      | none =>
        rw [hc] at hk
        dsimp only at hk
        split at hk
        · rename_i hkey
          cases hk
          exact ⟨X, hpc.1, hkey.symm, hpc.2⟩
        · exact hI.cache key v' hk
    | find X =>
      rw [hp] at hpc
      have hX : ∀ b ∈ X, b < G.n := hpc
      unfold distStep
      by_cases hle : (bitsOf G.n X).length ≤ s
      · simp only [if_pos hle]
        refine fin _ _ _ hI.cache hcl ⟨hX, ?_⟩
        rw [bitsOf_length hX] at hle
        unfold Correct
        rw [if_pos hle]
        constructor
        · intro hne
          have := C25_steiner_distance hG hn hw hr hsn h hne hX hle (fun _ => none) ⟨∅, fun _ => 0, []⟩
          unfold distanceSet at this
          rw [if_pos (by rw [bitsOf_length hX]; exact hle)] at this
          exact this
        · intro he
          have := C25_trivial_sets hG hn hw hr hsn h hX (by rw [he]; simp) (fun _ => none) ⟨∅, fun _ => 0, []⟩
          unfold distanceSet at this
          rw [if_pos (by rw [bitsOf_length hX]; exact hle)] at this
          exact this
      · simp only [if_neg hle]
        rw [bitsOf_length hX] at hle
        cases hc : x.cache (setHash G.n X) with
        | some v =>
          obtain ⟨Y, y1, y2, y3, y4⟩ := hI.cache _ v hc
          have : Y = X := setHash_inj hn64 y1 hX y2
          subst this
          exact fin _ _ _ hI.cache hcl ⟨hX, y4⟩
        | none =>
          have hne : X.Nonempty := Finset.card_pos.1 (by omega)
          obtain ⟨_, _, _, _, h1, _, _⟩ := ok_spec hG hn hw hr hsn h
          obtain ⟨M, hM⟩ := exists_completion h1 hX
          refine fin _ _ _ hI.cache (C39_spanning_tree hG hn hw hr hsn h hne hX hcl hM).2 ⟨hX, by omega, ?_⟩
          unfold Correct
          rw [if_neg hle]
          intro M' hM'
          exact (C39_spanning_tree hG hn hw hr hsn h hne hX hcl hM').1

theorem SysInv.reach {G : WGraph} (hG : G.WF) (hn : 2 ≤ G.n) (hn64 : G.n ≤ 64) (hw : G.weight G.edges < kInvalid) {arcs : List Arc}
    (hr : Represents arcs G) {s : Nat} (hsn : s ≤ G.n + 1) {A : Table} (h : precomputeDistances G.n arcs s = .ok A)
    {x y : Sys} (hx : SysInit G.n x) (hxy : ReflTransGen (SysStep G.n A s) x y) : SysInv G s y := by
  induction hxy with
  | refl =>
    refine ⟨fun key v hk => ?_, hx.clean, fun t => ?_⟩
    · rw [hx.cache key] at hk; cases hk
    · obtain ⟨X, h1, h2⟩ := hx.start t
      rw [h1]; exact h2
  | tail _ hstep ih => exact ih.step hG hn hn64 hw hr hsn h hstep

/-- **C39**: with any number of threads that request distances concurrently and share the cache, every
request returns the correct weight, in every interleaving and after every history of requests -/
theorem C39_concurrent_requests {G : WGraph} (hG : G.WF) (hn : 2 ≤ G.n) (hn64 : G.n ≤ 64) (hw : G.weight G.edges < kInvalid) {arcs : List Arc}
    (hr : Represents arcs G) {s : Nat} (hsn : s ≤ G.n + 1) {A : Table} (h : precomputeDistances G.n arcs s = .ok A)
    {x y : Sys} (hx : SysInit G.n x) (hxy : ReflTransGen (SysStep G.n A s) x y) {t : Nat} {X : Finset Nat} {v : Int} (hdone : y.pc t = .done X v) :
    (X.card ≤ s → X.Nonempty → G.IsSteiner X v) ∧ (X = ∅ → v = 0) ∧
    (s < X.card → (∀ M, G.IsCompletion X M → M.IsSpanning X v) ∧ ∀ o, G.IsSteiner X o → o ≤ v ∧ v ≤ 2 * o) := by
  have hI := (SysInv.reach hG hn hn64 hw hr hsn h hx hxy).pc t
  rw [hdone] at hI
  obtain ⟨hX, hC⟩ := hI
  unfold Correct at hC
  refine ⟨fun hle hne => ?_, fun he => ?_, fun hlt => ?_⟩
  · rw [if_pos hle] at hC; exact hC.1 hne
  · subst he; rw [if_pos (by simp)] at hC; exact hC.2 rfl
  · rw [if_neg (by omega)] at hC
    refine ⟨hC, fun o ho => ?_⟩
    obtain ⟨_, _, _, _, h1, _, _⟩ := ok_spec hG hn hw hr hsn h
    obtain ⟨M, hM⟩ := exists_completion h1 hX
    exact spanning_approx hG hM hX (Finset.card_pos.1 (by omega)) (hC M hM) ho

/-- **C39**: the answer depends only on the requested set, not on the history or the schedule -/
theorem C39_deterministic {G : WGraph} (hG : G.WF) (hn : 2 ≤ G.n) (hn64 : G.n ≤ 64) (hw : G.weight G.edges < kInvalid) {arcs : List Arc}
    (hr : Represents arcs G) {s : Nat} (hsn : s ≤ G.n + 1) {A : Table} (h : precomputeDistances G.n arcs s = .ok A)
    {x y x' y' : Sys} (hx : SysInit G.n x) (hxy : ReflTransGen (SysStep G.n A s) x y) (hx' : SysInit G.n x') (hxy' : ReflTransGen (SysStep G.n A s) x' y')
    {t t' : Nat} {X : Finset Nat} {v v' : Int} (hd : y.pc t = .done X v) (hd' : y'.pc t' = .done X v') : v = v' := by
  have h1 := (SysInv.reach hG hn hn64 hw hr hsn h hx hxy).pc t
  have h2 := (SysInv.reach hG hn hn64 hw hr hsn h hx' hxy').pc t'
  rw [hd] at h1
  rw [hd'] at h2
  obtain ⟨hX, hC⟩ := h1
  obtain ⟨_, hC'⟩ := h2
  unfold Correct at hC hC'
  by_cases hle : X.card ≤ s
  · rw [if_pos hle] at hC hC'
    rcases X.eq_empty_or_nonempty with he | hne
    · rw [hC.2 he, hC'.2 he]
    · obtain ⟨⟨U, S, a1, a2, a3⟩, a4⟩ := hC.1 hne
      obtain ⟨⟨U', S', b1, b2, b3⟩, b4⟩ := hC'.1 hne
      have := a4 U' S' b1 b2
      have := b4 U S a1 a2
      omega
  · rw [if_neg hle] at hC hC'
    obtain ⟨_, _, _, _, h1, _, _⟩ := ok_spec hG hn hw hr hsn h
    obtain ⟨M, hM⟩ := exists_completion h1 hX
    obtain ⟨⟨S, a1, a2⟩, a3⟩ := hC M hM
    obtain ⟨⟨S', b1, b2⟩, b3⟩ := hC' M hM
    have := a3 S' b1
    have := b3 S a1
    omega

/-- the queries for modified connectivity sets ask for the modified set and restore the given set -/
theorem C39_modified_sets (X : Finset Nat) (b r a : Nat) :
    withBlock X b = (insert b X, X) ∧ withoutBlock X b = (X.erase b, X) ∧
    exchangeBlocks X r a = (insert a (X.erase r), X) := by
  refine ⟨?_, ?_, ?_⟩
  · unfold withBlock
    by_cases hb : b ∈ X
    · simp [hb]
    · simp [hb]
  · unfold withoutBlock
    by_cases hb : b ∈ X
    · simp [hb]
    · simp [hb]
  · unfold exchangeBlocks
    dsimp only
    congr 1
    by_cases hr : r ∈ X <;> by_cases ha : a ∈ X <;> simp only [hr, ha, decide_true, decide_false, Bool.not_true, Bool.not_false,
      if_true, Bool.false_eq_true, if_false] <;> ext y <;> simp only [Finset.mem_insert, Finset.mem_erase]
    · constructor
      · rintro (rfl | rfl | ⟨_, h⟩) <;> assumption
      · intro h; by_cases h1 : y = r <;> by_cases h2 : y = a <;> simp_all
    · constructor
      · rintro ⟨h1, (rfl | rfl | ⟨_, h⟩)⟩
        · exact hr
        · exact absurd rfl h1
        · exact h
      · intro h
        refine ⟨fun e => ha (e ▸ h), ?_⟩
        by_cases h1 : y = r <;> simp_all
    · constructor
      · rintro (rfl | ⟨_, h⟩) <;> assumption
      · intro h; exact Or.inr ⟨fun e => hr (e ▸ h), h⟩
    · constructor
      · rintro ⟨h1, (rfl | ⟨_, h⟩)⟩
        · exact absurd rfl h1
        · exact h
      · intro h; exact ⟨fun e => ha (e ▸ h), Or.inr ⟨fun e => hr (e ▸ h), h⟩⟩

/-- with more than 64 blocks the cache key is not unique: different sets collide -/
theorem C39_hash_collision : setHash 65 {0, 1, 2, 3, 4} = setHash 65 {1, 2, 3, 4, 64} := by decide +kernel

/-! ### A concrete target graph: the path 0 - 1 - 2 - 3 with weights 2, 3, 4 -/

def exG : WGraph := ⟨4, {(0, 1), (1, 2), (2, 3)}, fun e => if e = (0, 1) then 2 else if e = (1, 2) then 3 else 4⟩
def exArcs : List Arc := [(0, 1, 2), (1, 0, 2), (1, 2, 3), (2, 1, 3), (2, 3, 4), (3, 2, 4)]

theorem exG_wf : exG.WF := ⟨by decide, by decide⟩

theorem exG_represents : Represents exArcs exG := by
  refine ⟨by decide, fun a b h => ?_⟩
  have h1 := (Adj.ends exG_wf (a := a) (b := b) h)
  have ha : a < 4 := h1.1
  have hb : b < 4 := h1.2.1
  revert h
  interval_cases a <;> interval_cases b <;> decide

theorem exG_weight : exG.weight exG.edges < kInvalid := by decide

theorem exG_ok : ∃ A, precomputeDistances exG.n exArcs 3 = .ok A :=
  ⟨precompute 4 exArcs 3, by
    have h : isConnected 4 exArcs = true := by decide +kernel
    show precomputeDistances 4 exArcs 3 = _
    unfold precomputeDistances
    rw [h]
    rfl⟩

/-- the hypotheses of the theorems hold; the Steiner tree of {0, 1, 3} has weight 9 -/
theorem C25_example : exG.IsSteiner {0, 1, 3} 9 := by
  obtain ⟨A, hA⟩ := exG_ok
  have h1 := C25_steiner_distance exG_wf (by decide) exG_weight exG_represents (s := 3) (by decide) hA (X := {0, 1, 3}) (by decide) (by decide)
    (by decide) (fun _ => none) ⟨∅, fun _ => 0, []⟩
  have h2 := (ok_spec exG_wf (by decide) exG_weight exG_represents (s := 3) (by decide) hA).2.2.2.1
  have h3 : (distanceSet 4 (precompute 4 exArcs 3) 3 {0, 1, 3} (fun _ => none) ⟨∅, fun _ => 0, []⟩).1 = 9 := by decide +kernel
  rw [h2] at h1
  rw [← h3]
  exact h1

/-- a set that is not precomputed -/
theorem C39_example : (distanceSet 4 (precompute 4 exArcs 3) 3 {0, 1, 2, 3} (fun _ => none) ⟨∅, fun _ => 0, []⟩).1 = 9 := by decide +kernel

end Verif.Steiner
