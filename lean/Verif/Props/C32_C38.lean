import Verif.Spec.Clustering
import Verif.Lemmas.Clustering10
import Mathlib.Data.List.Dedup
/-!
# C32, C38: concurrent clustering of the multilevel coarsener

Model: `Verif/Model/Clustering.lean` (`ClSt`), specification: `Verif/Spec/Clustering.lean`.
`ClSt.Reach lim nw nodes T s`: `s` occurs in some interleaving of `matchVertices` calls, at most `T` of
which are active at the same time, started with arbitrary targets.
-/
namespace Verif
open ClSt

variable {lim wmax : Int} {nw : Nat → Int} {nodes : List Nat} {T : Nat} {s : ClSt}

theorem labelWeight_eq (nodes : List Nat) (nw : Nat → Int) (label : Nat → Nat) (r : Nat) :
    labelWeight nodes nw label r = (nodes.map fun x => if label x = r then nw x else 0).sum := by
  unfold labelWeight
  induction nodes with
  | nil => rfl
  | cons a l ih =>
    by_cases h : label a = r
    · simp [h, ih]
    · simp [h, ih]

theorem labelWeight_le (hr : Reach lim nw nodes T s) (hnd : nodes.Nodup) (hnw : ∀ x ∈ nodes, 0 ≤ nw x) {r : Nat}
    (hrn : r ∈ nodes) : labelWeight nodes nw s.cid r ≤ nw r + s.memW nodes nw r + s.pendW nodes nw r := by
  rw [labelWeight_eq]
  unfold memW pendW
  have h1 : nw r = (nodes.map fun x => if x = r then nw x else 0).sum := by
    have : ∀ l : List Nat, l.Nodup → r ∈ l → (l.map fun x => if x = r then nw x else 0).sum = nw r := by
      intro l hl hm
      induction l with
      | nil => cases hm
      | cons a l ih =>
        rw [List.nodup_cons] at hl
        by_cases h : a = r
        · have hz : (l.map fun x => if x = r then nw x else 0).sum = 0 := by
            apply List.sum_eq_zero
            intro y hy
            obtain ⟨x, hx, rfl⟩ := List.mem_map.1 hy
            rw [if_neg]
            rintro rfl; exact hl.1 (h ▸ hx)
          rw [List.map_cons, List.sum_cons, hz, if_pos h, h]; simp
        · have hm' : r ∈ l := by
            rcases List.mem_cons.1 hm with h' | h'
            · exact (h h'.symm).elim
            · exact h'
          rw [List.map_cons, List.sum_cons, ih hl.2 hm', if_neg h]; simp
    exact (this nodes hnd hrn).symm
  rw [h1, ← List.sum_map_add, ← List.sum_map_add]
  apply List.sum_le_sum
  intro x hx
  have h0 := hnw x hx
  have hadd := hr.mem.2 x
  by_cases hc : s.cid x = r
  · by_cases hxr : x = r
    · simp only [if_pos hc, if_pos hxr]
      split <;> split <;> omega
    · rw [if_pos hc, if_neg hxr]
      cases ha : isAdd (s.pc x)
      · rw [if_pos ⟨hxr, hc, rfl⟩]; split <;> omega
      · have hp : pend r (s.pc x) = true := by
          cases hpc : s.pc x <;> simp [hpc, isAdd] at ha
          rename_i k r'
          simp [pend, ← hadd k r' hpc, hc]
        rw [if_pos hp]; split <;> omega
  · rw [if_neg hc]
    split <;> split <;> split <;> omega

/-- **C32** (weight limit). In every interleaving with at most `T` threads, at every moment, the nodes with
the same cluster label weigh together at most the limit plus the weight of `T - 1` heaviest nodes,
unless the labelling node alone is heavier. -/
theorem C32_weight_limit (hr : Reach lim nw nodes T s) (hnd : nodes.Nodup) (hnw : ∀ x ∈ nodes, 0 ≤ nw x)
    (hmax : ∀ x ∈ nodes, nw x ≤ wmax) (hT : 1 ≤ T) {r : Nat} (hrn : r ∈ nodes) :
    labelWeight nodes nw s.cid r ≤ max (nw r) (lim + ((T : Int) - 1) * wmax) := by
  have h0 : 0 ≤ wmax := le_trans (hnw r hrn) (hmax r hrn)
  have W := hr.winv hnd hnw hmax h0 hT
  have := labelWeight_le hr hnd hnw hrn
  have := W.low r
  have := W.up r
  omega

/-- **C32** (one thread). Without concurrency the limit is never exceeded by joining nodes. -/
theorem C32_weight_limit_sequential (hr : Reach lim nw nodes 1 s) (hnd : nodes.Nodup) (hnw : ∀ x ∈ nodes, 0 ≤ nw x)
    {r : Nat} (hrn : r ∈ nodes) : labelWeight nodes nw s.cid r ≤ max (nw r) lim := by
  obtain ⟨wmax, hmax⟩ : ∃ wmax, ∀ x ∈ nodes, nw x ≤ wmax := by
    refine ⟨(nodes.map nw).sum, fun x hx => List.single_le_sum ?_ _ (List.mem_map_of_mem hx)⟩
    intro y hy
    obtain ⟨z, hz, rfl⟩ := List.mem_map.1 hy
    exact hnw z hz
  simpa using C32_weight_limit hr hnd hnw hmax (Nat.le_refl 1) hrn

/-- **C32** (termination). In every execution, for every interleaving, in which a thread inside `matchVertices`
is always scheduled again, there is a moment after which no thread is inside `matchVertices` any more and
nothing changes: there is neither a deadlock nor an endless conflict resolution. -/
theorem C32_terminates (e : Exec lim nw nodes T) (hf : e.Fair) :
    ∃ J, ∀ i, J ≤ i → (∀ x, active ((e.σ i).pc x) = false) ∧ e.σ i = e.σ J := Exec.ends hf

/-- **C32** (no deadlock). From every reachable state the active calls alone can all return. -/
theorem C32_no_deadlock (hr : Reach lim nw nodes T s) :
    ∃ s', Steps lim nw s s' ∧ ∀ x, active (s'.pc x) = false := finish_all _ hr (Nat.le_refl _)

/-- **C32** (cluster ids). At every moment every cluster id is a node of the hypergraph, and a node that was not
matched by its own call keeps its own id. -/
theorem C32_cluster_ids (hr : Reach lim nw nodes T s) (hnd : nodes.Nodup) (hnw : ∀ x ∈ nodes, 0 ≤ nw x) (hT : 1 ≤ T) :
    (∀ x ∈ nodes, s.cid x ∈ nodes) ∧ ∀ x, s.pc x = .idle ∨ s.pc x = .skip → s.cid x = x := by
  constructor
  · intro x hx
    have hmax : ∀ x ∈ nodes, nw x ≤ (nodes.map nw).sum := by
      refine fun x hx => List.single_le_sum ?_ _ (List.mem_map_of_mem hx)
      intro y hy
      obtain ⟨z, hz, rfl⟩ := List.mem_map.1 hy
      exact hnw z hz
    exact (hr.winv hnd hnw hmax (le_trans (hnw x hx) (hmax x hx)) hT).cidm x hx
  · intro x hx
    exact hr.inv.1.noown x (by rcases hx with h | h <;> rw [h] <;> rfl)

/-- in a flat clustering the clusters correspond to the nodes that label themselves -/
theorem numClusters_flat (hnd : nodes.Nodup) {label : Nat → Nat} (hf : FlatClustering nodes label) :
    numClusters nodes label = nodes.countP fun x => decide (label x = x) := by
  unfold numClusters
  rw [List.countP_eq_length_filter]
  refine ((List.perm_ext_iff_of_nodup (List.nodup_dedup _) (hnd.filter _)).2 ?_).length_eq
  intro a
  simp only [List.mem_dedup, List.mem_map, List.mem_filter, decide_eq_true_eq]
  constructor
  · rintro ⟨x, hx, rfl⟩; exact hf x hx
  · rintro ⟨h1, h2⟩; exact ⟨a, h1, h2⟩

/-- **C38** (partial: assumes that no process was late, see `C38_chain_possible`). The clustering is flat at
every moment of every interleaving in which no process found its target matched in line 398 after its own
node had been matched by another process. -/
theorem C38_flat_partial (hr : Reach lim nw nodes T s) (hnd : nodes.Nodup) (hnw : ∀ x ∈ nodes, 0 ≤ nw x) (hT : 1 ≤ T)
    (hl : s.late = false) : FlatClustering nodes s.cid := by
  intro x hx
  refine ⟨(C32_cluster_ids hr hnd hnw hT).1 x hx, ?_⟩
  by_cases h : s.cid x = x
  · rw [h, h]
  · exact ((hr.inv.2 hl).root x h).1

/-- **C38** (partial: assumes that no cyclic dependency was resolved, see `C38_double_count`).  When no call is
active the clustering is flat, the maintained cluster weights are exact and `contracted_nodes` is the number
of nodes contracted away. -/
theorem C38_exact_partial (hr : Reach lim nw nodes T s) (hnd : nodes.Nodup) (hnw : ∀ x ∈ nodes, 0 ≤ nw x) (hT : 1 ≤ T)
    (hq : ∀ x, active (s.pc x) = false) (hres : ∀ z, s.res z = false) :
    FlatClustering nodes s.cid ∧ (∀ r ∈ nodes, s.cid r = r → s.cw r = labelWeight nodes nw s.cid r) ∧
    s.contracted + numClusters nodes s.cid = nodes.length := by
  have hflat := C38_flat_partial hr hnd hnw hT (hr.not_late hres)
  have E := hr.einv hnd hres
  have hna : ∀ x, isAdd (s.pc x) = false := by
    intro x
    have := hq x
    cases hpc : s.pc x <;> simp_all [isAdd, active]
  refine ⟨hflat, fun r hrn hrr => ?_, ?_⟩
  · have h1 := labelWeight_le hr hnd hnw hrn
    have h2 : s.pendW nodes nw r = 0 := by
      unfold pendW
      apply List.sum_eq_zero
      intro y hy
      obtain ⟨x, hx, rfl⟩ := List.mem_map.1 hy
      rw [if_neg]
      intro hp
      have := active_of_pend hp
      rw [hq x] at this; cases this
    have h3 : nw r + s.memW nodes nw r ≤ labelWeight nodes nw s.cid r := by
      rw [labelWeight_eq]
      unfold memW
      have : ∀ l : List Nat, l.Nodup → (if r ∈ l then nw r else 0) + (l.map fun x => if x ≠ r ∧ s.cid x = r ∧ isAdd (s.pc x) = false then nw x else 0).sum
          ≤ (l.map fun x => if s.cid x = r then nw x else 0).sum := by
        intro l hl
        induction l with
        | nil => simp
        | cons a l ih =>
          rw [List.nodup_cons] at hl
          have := ih hl.2
          simp only [List.map_cons, List.sum_cons, List.mem_cons, hna, and_true, ne_eq] at this ⊢
          by_cases har : a = r
          · subst har
            rw [if_neg hl.1] at this
            simp only [true_or, if_true, ne_eq, not_true, false_and, if_false, hrr]
            omega
          · have har' : ¬ r = a := fun h => har h.symm
            by_cases hca : s.cid a = r
            · simp only [har', false_or, hca, har, ne_eq, not_false_eq_true, true_and, if_true]; omega
            · simp only [har', false_or, hca, and_false, if_false]; omega
      have h4 := this nodes hnd
      rwa [if_pos hrn] at h4
    have h4 := E.cw r
    omega
  · rw [numClusters_flat hnd hflat, E.con]
    have : ∀ l : List Nat, (l.countP fun x => decide (s.cid x ≠ x) && !isAdd (s.pc x)) + (l.countP fun x => decide (s.cid x = x)) = l.length := by
      intro l
      induction l with
      | nil => rfl
      | cons a l ih =>
        simp only [List.countP_cons, List.length_cons, hna]
        by_cases h : s.cid a = a
        · simp [h]; simp [hna] at ih; omega
        · simp [h]; simp [hna] at ih; omega
    exact this nodes

/-- **C38** (one thread). When no call is active the clustering is flat, the maintained cluster weights are
exact and `contracted_nodes` is the number of nodes contracted away. -/
theorem C38_sequential (hr : Reach lim nw nodes 1 s) (hnd : nodes.Nodup) (hnw : ∀ x ∈ nodes, 0 ≤ nw x)
    (hq : ∀ x, active (s.pc x) = false) :
    FlatClustering nodes s.cid ∧ (∀ r ∈ nodes, s.cid r = r → s.cw r = labelWeight nodes nw s.cid r) ∧
    s.contracted + numClusters nodes s.cid = nodes.length :=
  C38_exact_partial hr hnd hnw (Nat.le_refl 1) hq (hr.single hnd)

/-! ## Concrete executions -/

/-- one action of a schedule: start a call, or let a process make `n` steps -/
inductive Sched
  | start (u v : Nat)
  | run (u : Nat)
  deriving DecidableEq

/-- run a schedule; `none` if an action is not possible -/
def exec (lim : Int) (nw : Nat → Int) (nodes : List Nat) (T : Nat) : List Sched → ClSt → Option ClSt
  | [], s => some s
  | .start u v :: l, s =>
    if u ∈ nodes ∧ v ∈ nodes ∧ v ≠ u ∧ s.pc u = .idle ∧ s.numActive nodes < T then exec lim nw nodes T l (s.begin u v) else none
  | .run u :: l, s => match s.run lim nw u true with
    | some s' => exec lim nw nodes T l s'
    | none => none

theorem exec_reach (l : List Sched) : ∀ {s s' : ClSt}, Reach lim nw nodes T s → exec lim nw nodes T l s = some s' →
    Reach lim nw nodes T s' := by
  induction l with
  | nil => intro s s' h he; cases he; exact h
  | cons a l ih =>
    intro s s' h he
    cases a with
    | start u v =>
      unfold exec at he
      split at he
      · rename_i hc
        exact ih (.start h hc.1 hc.2.1 hc.2.2.1 hc.2.2.2.1 hc.2.2.2.2) he
      · cases he
    | run u =>
      unfold exec at he
      split at he
      · rename_i hrun; exact ih (.run h hrun) he
      · cases he

def runs (u n : Nat) : List Sched := List.replicate n (.run u)

/-- quiescence on the nodes `0..n-1`, and the observable results, of a schedule -/
def outcome (lim : Int) (n T : Nat) (l : List Sched) : Option (Bool × List Nat × List Int × Nat) :=
  (exec lim (fun _ => 1) (List.range n) T l (ClSt.init fun _ => 1)).map fun s =>
    ((List.range n).all fun x => !active (s.pc x), (List.range n).map s.cid, (List.range n).map s.cw, s.contracted)

theorem outcome_spec {lim : Int} {n T : Nat} {l : List Sched} {q : Bool} {c : List Nat} {w : List Int} {k : Nat}
    (h : outcome lim n T l = some (q, c, w, k)) :
    ∃ s, Reach lim (fun _ => 1) (List.range n) T s ∧ (q = true → ∀ x, active (s.pc x) = false) ∧
      (List.range n).map s.cid = c ∧ (List.range n).map s.cw = w ∧ s.contracted = k := by
  unfold outcome at h
  obtain ⟨s, hs, he⟩ := Option.map_eq_some_iff.1 h
  have hr := exec_reach l .init hs
  simp only [Prod.mk.injEq] at he
  obtain ⟨h1, h2, h3, h4⟩ := he
  refine ⟨s, hr, fun hq x => ?_, h2, h3, h4⟩
  rw [hq, List.all_eq_true] at h1
  by_contra hx
  have hx : active (s.pc x) = true := by simpa using hx
  have hm := (hr.mem.1 x (by intro h; rw [h] at hx; simp [active] at hx)).1
  have := h1 x hm
  rw [hx] at this; cases this

/-- two threads, unit weights, limit 3: nodes 0 and 1 join the cluster {2, 3} at the same time -/
def exceedSched : List Sched :=
  .start 3 2 :: runs 3 11 ++ .start 0 2 :: .start 1 2 :: (runs 0 6 ++ runs 1 6 ++ runs 0 4 ++ runs 1 4)

/-- **C32** (the bound is tight). Two threads can exceed the limit 3 by the weight of one node. -/
theorem C32_limit_exceeded : ∃ s, Reach 3 (fun _ => 1) (List.range 4) 2 s ∧ (∀ x, active (s.pc x) = false) ∧
    labelWeight (List.range 4) (fun _ => 1) s.cid 2 = 3 + ((2 : Int) - 1) * 1 := by
  have h : outcome 3 4 2 exceedSched = some (true, [2, 2, 2, 2], [1, 1, 4, 1], 3) := by decide +kernel
  obtain ⟨s, h1, h2, h3, _⟩ := outcome_spec h
  refine ⟨s, h1, h2 rfl, ?_⟩
  have e : ∀ x, x < 4 → s.cid x = 2 := by
    have e' : (List.range 4).map s.cid = [s.cid 0, s.cid 1, s.cid 2, s.cid 3] := rfl
    rw [e'] at h3
    simp only [List.cons.injEq] at h3
    intro x hx
    match x, hx with
    | 0, _ => exact h3.1
    | 1, _ => exact h3.2.1
    | 2, _ => exact h3.2.2.1
    | 3, _ => exact h3.2.2.2.1
  unfold labelWeight
  rw [List.filter_eq_self.2]
  · rfl
  · intro x hx; simp [e x (List.mem_range.1 hx)]

/-- two threads match 0 with 1 and 1 with 0 at the same time -/
def cycleSched : List Sched :=
  .start 0 1 :: .start 1 0 :: (runs 0 3 ++ runs 1 4 ++ runs 0 16 ++ runs 1 7)

/-- **C38** (not true in general: double counting). After resolving a cyclic dependency the resolver joins the
same cluster a second time: cluster 1 consists of two nodes of weight 1, but its maintained weight is 3, and
two nodes are counted as contracted although only one disappears. -/
theorem C38_double_count : ∃ s, Reach 10 (fun _ => 1) (List.range 2) 2 s ∧ (∀ x, active (s.pc x) = false) ∧
    s.cid 0 = 1 ∧ s.cid 1 = 1 ∧ s.cw 1 = 3 ∧ s.contracted = 2 := by
  have h : outcome 10 2 2 cycleSched = some (true, [1, 1], [1, 3], 2) := by decide +kernel
  obtain ⟨s, h1, h2, h3, h4, h5⟩ := outcome_spec h
  have e' : (List.range 2).map s.cid = [s.cid 0, s.cid 1] := rfl
  have e'' : (List.range 2).map s.cw = [s.cw 0, s.cw 1] := rfl
  rw [e'] at h3; rw [e''] at h4
  simp only [List.cons.injEq] at h3 h4
  exact ⟨s, h1, h2 rfl, h3.1, h3.2.1, h4.2.1, h5⟩

/-- three threads: 0, 1, 2 want to join 1, 2, 0.  The thread of node 1 is delayed between storing its
partner (392) and loading the state of 2 (397). -/
def chainSched : List Sched :=
  .start 0 1 :: .start 1 2 :: .start 2 0 :: (runs 0 3 ++ runs 1 3 ++ runs 2 3 ++ runs 0 17 ++ runs 2 5 ++ runs 1 7)

/-- **C38** (not true in general: chains). Node 1 is matched by the resolver of the cycle and becomes the
representative of node 0, yet afterwards it joins the cluster of node 2: the final clustering is not flat. -/
theorem C38_chain_possible : ∃ s, Reach 3 (fun _ => 1) (List.range 3) 3 s ∧ (∀ x, active (s.pc x) = false) ∧
    s.cid 0 = 1 ∧ s.cid 1 = 2 ∧ ¬ FlatClustering (List.range 3) s.cid := by
  have h : outcome 3 3 3 chainSched = some (true, [1, 2, 2], [1, 3, 2], 3) := by decide +kernel
  obtain ⟨s, h1, h2, h3, _⟩ := outcome_spec h
  have e' : (List.range 3).map s.cid = [s.cid 0, s.cid 1, s.cid 2] := rfl
  rw [e'] at h3
  simp only [List.cons.injEq] at h3
  refine ⟨s, h1, h2 rfl, h3.1, h3.2.1, fun hf => ?_⟩
  have := (hf 0 (by simp)).2
  rw [h3.1, h3.2.1] at this
  cases this

/-- a schedule after which nothing is active, continued by doing nothing, is a fair execution -/
theorem exec_fair (l : List Sched) : ∀ {s s' : ClSt}, exec lim nw nodes T l s = some s' → (∀ x, active (s'.pc x) = false) →
    ∃ (σ : Nat → ClSt) (act : Nat → ClSt.Act), σ 0 = s ∧ (∀ i, Does lim nw nodes T (σ i) (act i) (σ (i + 1))) ∧
      (∀ i x, active ((σ i).pc x) = true → ∃ j, i ≤ j ∧ ∃ ok, act j = .run x ok) ∧ σ l.length = s' := by
  induction l with
  | nil =>
    intro s s' he hq
    cases he
    refine ⟨fun _ => s, fun _ => .stay, rfl, fun _ => rfl, fun _ x hx => ?_, rfl⟩
    have hx : active (s.pc x) = true := hx
    rw [hq x] at hx; cases hx
  | cons a l ih =>
    intro s s' he hq
    have key : ∀ (b : ClSt.Act) (s1 : ClSt), Does lim nw nodes T s b s1 → exec lim nw nodes T l s1 = some s' →
        (∀ x, active (s.pc x) = true → (∃ ok, b = .run x ok) ∨ active (s1.pc x) = true) →
        ∃ (σ : Nat → ClSt) (act : Nat → ClSt.Act), σ 0 = s ∧ (∀ i, Does lim nw nodes T (σ i) (act i) (σ (i + 1))) ∧
          (∀ i x, active ((σ i).pc x) = true → ∃ j, i ≤ j ∧ ∃ ok, act j = .run x ok) ∧ σ (a :: l).length = s' := by
      intro b s1 h1 h2 h3
      obtain ⟨σ, act, g1, g2, g3, g4⟩ := ih h2 hq
      refine ⟨fun i => Nat.casesOn i s σ, fun i => Nat.casesOn i b act, rfl, ?_, ?_, ?_⟩
      · intro i
        cases i with
        | zero => show Does _ _ _ _ s b (σ 0); rw [g1]; exact h1
        | succ i => exact g2 i
      · intro i x hx
        cases i with
        | zero =>
          rcases h3 x hx with ⟨ok, h⟩ | h
          · exact ⟨0, Nat.le_refl _, ok, h⟩
          · obtain ⟨j, _, ok, hj⟩ := g3 0 x (by rw [g1]; exact h)
            exact ⟨j + 1, Nat.zero_le _, ok, hj⟩
        | succ i =>
          obtain ⟨j, hij, ok, hj⟩ := g3 i x hx
          exact ⟨j + 1, by omega, ok, hj⟩
      · exact g4
    cases a with
    | start u v =>
      unfold exec at he
      split at he
      · rename_i hc
        refine key (.start u v) _ ⟨hc.1, hc.2.1, hc.2.2.1, hc.2.2.2.1, hc.2.2.2.2, rfl⟩ he ?_
        intro x hx
        right
        by_cases h : x = u
        · subst h; rw [hc.2.2.2.1] at hx; cases hx
        · have : (s.begin u v).pc x = s.pc x := Function.update_of_ne h ..
          rw [this]; exact hx
      · cases he
    | run u =>
      unfold exec at he
      split at he
      · rename_i s1 hrun
        refine key (.run u true) s1 hrun he ?_
        intro x hx
        by_cases h : x = u
        · exact .inl ⟨true, by rw [h]⟩
        · right; rw [(run_pc hrun).1 x h]; exact hx
      · cases he

/-- the hypotheses of `C32_terminates` are met by the schedule with a three-cycle -/
example : ∃ e : Exec 3 (fun _ => 1) (List.range 3) 3, e.Fair ∧ ∃ i, (e.σ i).cid 0 = 1 ∧ (e.σ i).cid 1 = 2 := by
  have h : outcome 3 3 3 chainSched = some (true, [1, 2, 2], [1, 3, 2], 3) := by decide +kernel
  have h' := h
  unfold outcome at h
  obtain ⟨s, hs, he⟩ := Option.map_eq_some_iff.1 h
  simp only [Prod.mk.injEq] at he
  obtain ⟨h1, h2, _, _⟩ := he
  have hq : ∀ x, active (s.pc x) = false := by
    intro x
    by_contra hx
    have hx : active (s.pc x) = true := by simpa using hx
    have hm := ((exec_reach chainSched .init hs).mem.1 x (by intro h; rw [h] at hx; simp [active] at hx)).1
    rw [List.all_eq_true] at h1
    have := h1 x hm
    rw [hx] at this; cases this
  obtain ⟨σ, act, g1, g2, g3, g4⟩ := exec_fair chainSched hs hq
  have e' : (List.range 3).map s.cid = [s.cid 0, s.cid 1, s.cid 2] := rfl
  rw [e'] at h2
  simp only [List.cons.injEq] at h2
  exact ⟨⟨σ, act, g1, g2⟩, g3, chainSched.length, by show (σ _).cid 0 = 1; rw [g4]; exact h2.1,
    by show (σ _).cid 1 = 2; rw [g4]; exact h2.2.1⟩

/-- one thread: 0 and 3 join 1 and 2, the hypotheses of `C38_sequential` are met -/
example : ∃ s, Reach 3 (fun _ => 1) (List.range 4) 1 s ∧ (∀ x, active (s.pc x) = false) ∧ s.cid 0 = 1 ∧ s.cid 3 = 1 := by
  have h : outcome 3 4 1 (.start 0 1 :: runs 0 11 ++ .start 3 0 :: runs 3 10) = some (true, [1, 1, 2, 1], [1, 3, 1, 1], 2) := by
    decide +kernel
  obtain ⟨s, h1, h2, h3, _⟩ := outcome_spec h
  have e' : (List.range 4).map s.cid = [s.cid 0, s.cid 1, s.cid 2, s.cid 3] := rfl
  rw [e'] at h3
  simp only [List.cons.injEq] at h3
  exact ⟨s, h1, h2 rfl, h3.1, h3.2.2.2.1⟩

end Verif
