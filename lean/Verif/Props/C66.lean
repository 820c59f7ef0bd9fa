import Verif.Model.JetGraph
import Verif.Props.C36_C37
/-!
# C66: deterministic Jet refiner on graphs

Specification: `AGraph.WF`, `AGraph.cut` (Spec/Graph.lean).
-/
namespace Verif
namespace JetG
open GSt

variable {G : AGraph} {k : Nat}

theorem foldl_sum {α : Type} (f : α → Int) : ∀ (l : List α) (z : Int), l.foldl (fun t x => t + f x) z = z + (l.map f).sum := by
  intro l
  induction l with
  | nil => intro z; simp
  | cons a l ih => intro z; rw [List.foldl_cons, ih, List.map_cons, List.sum_cons]; omega

theorem upd_gain {src dst : Nat} (h : src ≠ dst) (other : Option Nat) (e : Nat) :
    (upd G src dst other e).gain = (if other = some src then G.ew e else 0) - (if other = some dst then G.ew e else 0) := by
  unfold upd GUpdate.gain
  dsimp only
  by_cases h1 : other = some src
  · have h2 : ¬ other = some dst := fun hh => h (Option.some.inj (h1.symm.trans hh))
    rw [if_pos h1, if_pos h1, if_pos h1, if_neg h2]
    simp
  · rw [if_neg h1, if_neg h1, if_neg h1]
    by_cases h2 : other = some dst
    · rw [if_pos h2, if_pos h2]
      simp
    · rw [if_neg h2, if_neg h2]
      simp

/-- moving `u` changes the cut by the sum of the attributed gains -/
theorem sum_gain (hw : G.WF) {Φ : Assign} {u src dst : Nat} (hu : u ∈ G.nodes) (hs : Φ u = some src) (h : src ≠ dst) {other : Nat → Option Nat}
    (ho : ∀ p ∈ G.nodes, p ≠ u → other p = Φ p) :
    (G.inc u).foldl (fun t e => t + (upd G src dst (other (G.tgt e)) e).gain) 0 = G.cut (Φ.put u dst) - G.cut Φ := by
  have hc := cut_put hw hu hs (dst := dst)
  rw [foldl_sum, Int.zero_add]
  have e1 : (G.inc u).map (fun e => (upd G src dst (other (G.tgt e)) e).gain) =
      (G.inc u).map (fun e => (if Φ (G.tgt e) = some src then G.ew e else 0) - (if Φ (G.tgt e) = some dst then G.ew e else 0)) := by
    apply List.map_congr_left
    intro e he
    obtain ⟨t1, t2, _⟩ := tgt_ne hw hu he
    rw [upd_gain h, ho _ t2 t1]
  have e2 : ∀ (l : List Nat) (f g : Nat → Int), (l.map (fun e => f e - g e)).sum = (l.map f).sum - (l.map g).sum := by
    intro l f g
    induction l with
    | nil => simp
    | cons a l ih => rw [List.map_cons, List.sum_cons, ih, List.map_cons, List.sum_cons, List.map_cons, List.sum_cons]; omega
  rw [e1, e2]
  omega

theorem cut_congr (hw : G.WF) {Φ Ψ : Assign} (h : ∀ u ∈ G.nodes, Φ u = Ψ u) : G.cut Φ = G.cut Ψ := by
  unfold AGraph.cut
  congr 1
  apply List.map_congr_left
  intro x hx
  obtain ⟨m1, m2⟩ := hw.ends_mem x hx
  rw [h _ m1, h _ m2]

/-- **C66** (afterburner). Exactly those proposals stay active that do not increase the cut when they are executed after all proposals that come before them: smaller
gain value first, ties in favour of the smaller id. -/
theorem C66_afterburner (hw : G.WF) {Φ : Assign} (hΦ : ∀ u ∈ G.nodes, Φ u ≠ none) {gt : Nat → Int × Nat} {act act' : List Nat} (hact : ∀ v ∈ act, v ∈ G.nodes)
    (hne : ∀ v ∈ act, Φ v ≠ some (gt v).2) (h : Burn G Φ gt act act') (v : Nat) :
    let Ψ : Assign := fun u => if (gt u).1 < (gt v).1 ∨ ((gt u).1 = (gt v).1 ∧ u < v) then some (gt u).2 else Φ u
    (v ∈ act' ↔ v ∈ act ∧ G.cut (Ψ.put v (gt v).2) ≤ G.cut Ψ) ∧ (act.Nodup → act'.Nodup) := by
  intro Ψ
  have hmem : v ∈ act' ↔ v ∈ act ∧ total G Φ gt v ≤ 0 := by
    rw [h.mem_iff, List.mem_filter, decide_eq_true_iff]
  refine ⟨?_, fun hn => h.nodup_iff.2 (hn.filter _)⟩
  rw [hmem]
  refine and_congr_right (fun hv => ?_)
  obtain ⟨src, hs⟩ := Option.ne_none_iff_exists'.1 (hΦ v (hact v hv))
  have hsd : src ≠ (gt v).2 := fun hh => hne v hv (by rw [hs, hh])
  have hΨ : Ψ v = some src := by
    show (if (gt v).1 < (gt v).1 ∨ ((gt v).1 = (gt v).1 ∧ v < v) then some (gt v).2 else Φ v) = _
    rw [if_neg (by omega), hs]
  have := sum_gain hw (hact v hv) hΨ hsd (other := burnBlock Φ gt v) (fun p _ _ => rfl)
  have ht : total G Φ gt v = G.cut (Ψ.put v (gt v).2) - G.cut Ψ := by
    unfold total
    rw [hs]
    exact this
  rw [ht]
  omega

/-- the partition in which the nodes of `S` have their new blocks -/
def mix (before after : Assign) (S : List Nat) : Assign := fun u => if u ∈ S then after u else before u

theorem nodes_sum (hw : G.WF) {before after : Assign} (hb : ∀ u ∈ G.nodes, before u ≠ none) (ha : ∀ u ∈ G.nodes, after u ≠ none) :
    ∀ (rest done : List Nat), (done ++ rest).Perm G.nodes → (done ++ rest).Pairwise (· < ·) →
    G.cut (mix before after (done ++ rest)) - G.cut (mix before after done) = (rest.map (nodeDelta G before after)).sum := by
  intro rest
  induction rest with
  | nil => intro done _ _; simp
  | cons v rest ih =>
    intro done hp hs
    have hassoc : done ++ v :: rest = (done ++ [v]) ++ rest := by simp
    have h1 := ih (done ++ [v]) (hassoc ▸ hp) (hassoc ▸ hs)
    rw [← hassoc] at h1
    have hv : v ∈ G.nodes := hp.subset (by simp)
    have hvd : v ∉ done := by
      intro hh
      rw [List.pairwise_append] at hs
      exact absurd (hs.2.2 v hh v List.mem_cons_self) (Nat.lt_irrefl _)
    have hlt : ∀ p ∈ G.nodes, p ≠ v → (p ∈ done ↔ p < v) := by
      intro p hpn hne
      rw [List.pairwise_append, List.pairwise_cons] at hs
      constructor
      · intro hh
        exact hs.2.2 p hh v List.mem_cons_self
      · intro hh
        rcases List.mem_append.1 (hp.symm.subset hpn) with h2 | h2
        · exact h2
        · rcases List.mem_cons.1 h2 with h3 | h3
          · exact absurd h3 hne
          · have := hs.2.1.1 p h3
            omega
    have key : G.cut (mix before after (done ++ [v])) - G.cut (mix before after done) = nodeDelta G before after v := by
      unfold nodeDelta
      by_cases hne : before v ≠ after v
      · rw [if_pos hne]
        obtain ⟨src, hsrc⟩ := Option.ne_none_iff_exists'.1 (hb v hv)
        obtain ⟨dst, hdst⟩ := Option.ne_none_iff_exists'.1 (ha v hv)
        have hsd : src ≠ dst := fun hh => hne (by rw [hsrc, hdst, hh])
        have := sum_gain hw hv (Φ := mix before after done) (src := src) (dst := dst) (by unfold mix; rw [if_neg hvd, hsrc]) hsd (other := deltaBlock before after v)
          (fun p hpn hpne => by
            unfold deltaBlock mix
            by_cases h2 : p < v
            · rw [if_pos h2, if_pos ((hlt p hpn hpne).2 h2)]
            · rw [if_neg h2, if_neg (fun hh => h2 ((hlt p hpn hpne).1 hh))])
        rw [hsrc, hdst]
        refine Eq.trans ?_ this.symm
        congr 1
        apply cut_congr hw
        intro u _
        unfold mix Assign.put
        by_cases hu : u = v
        · subst hu
          rw [if_pos (by simp), if_pos rfl, hdst]
        · rw [if_neg hu]
          simp [hu]
      · rw [if_neg hne]
        have : G.cut (mix before after (done ++ [v])) = G.cut (mix before after done) := by
          apply cut_congr hw
          intro u _
          unfold mix
          by_cases hu : u = v
          · subst hu
            rw [if_pos (by simp), if_neg hvd]
            push Not at hne
            exact hne.symm
          · simp [hu]
        omega
    rw [List.map_cons, List.sum_cons, ← key]
    omega

theorem sorted_nodes (hw : G.WF) : ∃ l : List Nat, l.Perm G.nodes ∧ l.Pairwise (· < ·) := by
  refine ⟨G.nodes.mergeSort (fun a b => decide (a ≤ b)), List.mergeSort_perm _ _, ?_⟩
  have h1 := List.pairwise_mergeSort (le := fun a b : Nat => decide (a ≤ b)) (by intro a b c; simp; omega) (by intro a b; simp; omega) G.nodes
  have h2 : (G.nodes.mergeSort (fun a b => decide (a ≤ b))).Nodup := (List.mergeSort_perm _ _).nodup_iff.2 hw.nodes_nodup
  exact (List.pairwise_and_iff.2 ⟨h1, h2⟩).imp (fun hh => by have := hh.1; rw [decide_eq_true_iff] at this; have := hh.2; omega)

/-- **C66** (quality). However the nodes are distributed among the threads, the sum of the contributions of all nodes is the change of the cut between the partition
before the iteration and the current one: no matter which nodes have been moved, how often and by whom. -/
theorem C66_gain_delta (hw : G.WF) {before after : Assign} (hb : ∀ u ∈ G.nodes, before u ≠ none) (ha : ∀ u ∈ G.nodes, after u ≠ none) {chunks : List (List Nat)}
    (hc : chunks.flatten.Perm G.nodes) : gainDelta G before after chunks = G.cut after - G.cut before := by
  obtain ⟨l, hl, hs⟩ := sorted_nodes hw
  have h1 := nodes_sum hw hb ha l [] (by simpa using hl) (by simpa using hs)
  have h2 : G.cut (mix before after ([] ++ l)) = G.cut after := cut_congr hw (fun u hu => by
    unfold mix
    rw [if_pos (by simpa using hl.symm.subset hu)])
  have h3 : G.cut (mix before after []) = G.cut before := cut_congr hw (fun u hu => by
    unfold mix
    rw [if_neg (by simp)])
  rw [h2, h3] at h1
  rw [h1]
  unfold gainDelta
  have h4 : ∀ (cs : List (List Nat)) (z : Int), (cs.map (fun ch => ch.foldl (fun t hn => t + nodeDelta G before after hn) 0)).foldl (· + ·) z =
      z + (cs.flatten.map (nodeDelta G before after)).sum := by
    intro cs
    induction cs with
    | nil => intro z; simp
    | cons ch cs ih =>
      intro z
      rw [List.map_cons, List.foldl_cons, ih, foldl_sum, List.flatten_cons, List.map_append, List.sum_append]
      omega
  rw [h4, Int.zero_add, ((hc.trans hl.symm).map _).sum_eq]

/-- **C66** (exact). If the tracked quality is the cut before an iteration, it is the cut after it. The states are those reached by any concurrent moves from a
partition (C36), e.g. by the moves of the refiner and the rebalancer. -/
theorem C66_quality (hw : G.WF) {kc : Nat} {Φ : Assign} {cache : Nat → Int} (hΦ : ∀ u ∈ G.nodes, ∃ b < k, Φ u = some b) {as bs : List GAct} {s s' : GSt}
    (h : exec G k kc (create G Φ cache) as = some s) (hq : s.quiescent G = true) (h' : exec G k kc s bs = some s') (hq' : s'.quiescent G = true) {cur : Int}
    (hc : cur = G.cut s.part) {chunks : List (List Nat)} (hch : chunks.flatten.Perm G.nodes) : quality G cur s.part s'.part chunks = G.cut s'.part := by
  have h1 := (C36_graph_block_weights hw hΦ h hq).1
  have happ : ∀ (as : List GAct) (s0 : GSt), exec G k kc s0 as = some s → exec G k kc s0 (as ++ bs) = some s' := by
    intro as
    induction as with
    | nil => intro s0 h0; simp only [exec, Option.some.injEq] at h0; subst h0; simpa using h'
    | cons a as ih =>
      intro s0 h0
      simp only [List.cons_append, exec] at h0 ⊢
      cases hst : step G k kc s0 a with
      | none => rw [hst] at h0; cases h0
      | some s1 => rw [hst] at h0; simpa using ih s1 h0
  have h2 := (C36_graph_block_weights hw hΦ (happ as _ h) hq').1
  unfold quality
  rw [C66_gain_delta hw (fun u hu => by obtain ⟨b, _, hb⟩ := h1 u hu; rw [hb]; simp) (fun u hu => by obtain ⟨b, _, hb⟩ := h2 u hu; rw [hb]; simp) hch, hc]
  omega

/-! ### A concrete case: the triangle exTri (C36) -/

/-- all three nodes in different blocks; 1 and 2 propose to go to block 0, node 0 to block 1, with the gains below -/
def jgΦ : Assign := fun v => if v < 3 then some v else none

def jgGt (v : Nat) : Int × Nat := if v = 0 then (-5, 1) else if v = 1 then (-6, 2) else (-7, 0)

theorem jgTotals : total exTri jgΦ jgGt 2 = -7 ∧ total exTri jgΦ jgGt 1 = 0 ∧ total exTri jgΦ jgGt 0 = 7 := by decide

theorem jgBurn : Burn exTri jgΦ jgGt [0, 1, 2] [2, 1] := by unfold Burn; decide

example : gainDelta exTri jgΦ (fun v => if v = 1 then some 2 else some 0) [[2], [0, 1]] = exTri.cut (fun v => if v = 1 then some 2 else some 0) - exTri.cut jgΦ :=
  C66_gain_delta exTri_wf (by decide) (by decide) (by decide)

example : gainDelta exTri jgΦ (fun v => if v = 1 then some 2 else some 0) [[2], [0, 1]] = -7 := by decide

end JetG
end Verif
