import Verif.Lemmas.SG7
/-!
# The result of the construction
-/
namespace Verif
open SMap (wr)
namespace SG

/-- what a successful construction returns -/
structure Built (n m : Nat) (ev : Nat → Nat × Nat) (ew nw : Nat → Int) (stable : Bool) (G : SGraph) : Prop where
  loopfree : ∀ e < m, (ev e).1 ≠ (ev e).2
  valid : ∀ e < m, (ev e).1 < n ∧ (ev e).2 < n
  n_eq : G.n = n
  m_eq : G.m = 2 * m
  enabled : ∀ v < n, G.enabled v = true
  nw : G.nw = nw
  first : G.first = psum (fun c => (segOf m ev ew c).length)
  total : G.first n = 2 * m
  seg : ∀ u < n, ((G.inc u).map G.edge).Perm (segOf m ev ew u)
  sorted : stable = true → ∀ u < n, ((G.inc u).map G.edge).Pairwise (fun a b => a.tgt ≤ b.tgt)

theorem inc_map_edge (G : SGraph) (u : Nat) : (G.inc u).map G.edge = rd G.edge (G.first u) (G.degree u) := by
  unfold SGraph.inc rd; rw [List.map_map]; rfl

section
variable {n m len : Nat} {ev : Nat → Nat × Nat} {ew nw : Option (Nat → Int)} {stable : Bool} {s : FSched n}
  {edge0 : Nat → GEdge} {G : SGraph}

theorem construct_built (hs : s.Legal m) (h : construct n m len ev ew nw stable s edge0 = some G) :
    len = m ∧ m ≤ kInvalid / 2 ∧ Built n m ev (weightsOf ew) (weightsOf nw) stable G ∧
      (s.reduce.eval (weightsOf nw)).2 = false ∧ G.totalWeight = (s.reduce.eval (weightsOf nw)).1 := by
  unfold construct at h
  by_cases h1 : m > kInvalid / 2
  · rw [if_pos h1] at h; cases h
  rw [if_neg h1] at h
  by_cases h2 : len ≠ m
  · rw [if_pos h2] at h; cases h
  rw [if_neg h2] at h
  split at h
  · cases h
  rename_i h3
  simp only [List.any_eq_true, List.mem_range, Bool.or_eq_true, decide_eq_true_eq, not_exists, not_and, not_or] at h3
  simp only [weightsOf_eq] at h
  by_cases h4 : (s.reduce.eval (weightsOf nw)).2 = true
  · rw [if_pos h4] at h; cases h
  rw [if_neg h4] at h
  simp only [Option.some.injEq] at h
  have hl : ∀ e < m, (ev e).1 ≠ (ev e).2 := fun e he => (h3 e he).1.1
  have hv : ∀ e < m, (ev e).1 < n ∧ (ev e).2 < n := fun e he => by have := h3 e he; omega
  have hdeg : degCount m ev s.threads s.thread = fun c => (segOf m ev (weightsOf ew) c).length :=
    funext (fun c => degCount_eq hs hl c)
  have htot := deg_total (n := n) hs hv
  have hseg := written_seg (ew := weightsOf ew) hs hl edge0
  generalize hD : degCount m ev s.threads s.thread = deg at *
  generalize hE : (s.order.foldl (writeEnd ev (weightsOf ew) (psum deg)) (edge0, fun _ => 0)).1 = edge at *
  have hsort := sortIncident_spec (n := n) hs.srt deg edge
  have hsz : ∀ c, psum deg (c + 1) - psum deg c = deg c := fun c => by rw [psum_succ]; omega
  subst h
  refine ⟨by omega, by omega, ⟨hl, hv, rfl, rfl, fun v hv => by simp [hv], rfl, ?_, htot, ?_, ?_⟩, by simpa using h4, rfl⟩
  · show psum deg = _
    rw [hdeg]
  · intro u hu
    rw [inc_map_edge]
    simp only [SGraph.degree, hsz]
    cases stable with
    | false => exact hseg u
    | true => exact (hsort u hu).1.trans (hseg u)
  · intro hst u hu
    subst hst
    rw [inc_map_edge]
    simp only [SGraph.degree, hsz]
    exact (hsort u hu).2

end

section
variable {n m : Nat} {ev : Nat → Nat × Nat} {ew nw : Nat → Int} {stable : Bool} {G : SGraph}

theorem mem_segOf {c : Nat} {g : GEdge} (hl : ∀ e < m, (ev e).1 ≠ (ev e).2) :
    g ∈ segOf m ev ew c ↔ g.uid < m ∧ g.src = c ∧ g.w = ew g.uid ∧
      (ev g.uid = (c, g.tgt) ∨ ev g.uid = (g.tgt, c)) := by
  unfold segOf
  simp only [List.mem_map, List.mem_filter, List.mem_range, decide_eq_true_eq]
  constructor
  · rintro ⟨e, ⟨he, hc⟩, rfl⟩
    refine ⟨he, rfl, rfl, ?_⟩
    rcases hc with hc | hc
    · left; simp only [if_pos hc]; rw [← hc]
    · right
      have : (ev e).1 ≠ c := fun h => hl e he (h.trans hc.symm)
      simp only [if_neg this]; rw [← hc]
  · rintro ⟨he, hsrc, hw, hj⟩
    refine ⟨g.uid, ⟨he, ?_⟩, ?_⟩
    · rcases hj with hj | hj <;> rw [hj] <;> simp
    · obtain ⟨a, b, x, u⟩ := g
      simp only at he hsrc hw hj ⊢
      subst hsrc
      subst hw
      have := hl u he
      rcases hj with hj | hj
      · simp [hj]
      · rw [hj] at this
        simp only at this
        simp [hj, this]

theorem Built.adj (hB : Built n m ev ew nw stable G) (hn : n ≤ kInvalid) : G.Adj ev ew := by
  have hnodes : G.nodes = List.range n := by
    unfold SGraph.nodes
    rw [hB.n_eq]
    exact List.filter_eq_self.2 (fun a ha => hB.enabled a (List.mem_range.1 ha))
  have hM : G.m / 2 = m := by rw [hB.m_eq]; omega
  have hmem : ∀ u < n, ∀ e ∈ G.inc u, G.edge e ∈ segOf m ev ew u := fun u hu e he =>
    (hB.seg u hu).mem_iff.1 (List.mem_map_of_mem he)
  have hL := hB.loopfree
  have huid : ∀ u < n, ((G.inc u).map (fun e => (G.edge e).uid)).Perm
      ((List.range m).filter (fun e => decide ((ev e).1 = u ∨ (ev e).2 = u))) := by
    intro u hu
    have := (hB.seg u hu).map GEdge.uid
    rw [List.map_map] at this
    refine List.Perm.trans this ?_
    unfold segOf
    rw [List.map_map]
    simp [Function.comp_def]
  refine ⟨by rw [hB.n_eq]; exact hn, ?_, ?_, ?_, by rw [hM, hB.m_eq], ?_, ?_, ?_⟩
  · rw [hB.first]; rfl
  · intro u _; rw [hB.first]; exact psum_mono _ (by omega)
  · rw [hB.n_eq, hB.m_eq]; exact hB.total
  · intro u hu e he
    rw [hB.n_eq] at hu
    exact ((mem_segOf hL).1 (hmem u hu e he)).2.1
  · intro u hu he
    rw [hB.n_eq] at hu
    rw [hB.enabled u hu] at he; cases he
  · constructor
    · show G.nodes.Nodup
      rw [hnodes]; exact List.nodup_range
    · exact List.nodup_range
    · intro x hx
      have hx : x < m := by
        have := List.mem_range.1 hx
        rw [hM] at this; exact this
      show _ ∈ G.nodes ∧ _ ∈ G.nodes
      rw [hnodes]
      exact ⟨List.mem_range.2 (hB.valid x hx).1, List.mem_range.2 (hB.valid x hx).2⟩
    · intro x hx
      have hx : x < m := by
        have := List.mem_range.1 hx
        rw [hM] at this; exact this
      exact hL x hx
    · intro u hu
      have hu : u < n := by
        have : u ∈ G.nodes := hu
        rw [hnodes] at this; exact List.mem_range.1 this
      exact (huid u hu).nodup_iff.2 (List.nodup_range.filter _)
    · intro u hu x
      have hu : u < n := by
        have : u ∈ G.nodes := hu
        rw [hnodes] at this; exact List.mem_range.1 this
      refine (huid u hu).mem_iff.trans ?_
      show _ ↔ x ∈ List.range (G.m / 2) ∧ (u = (ev x).1 ∨ u = (ev x).2)
      rw [hM, List.mem_filter, decide_eq_true_eq]
      constructor
      · rintro ⟨h1, h2 | h2⟩
        · exact ⟨h1, Or.inl h2.symm⟩
        · exact ⟨h1, Or.inr h2.symm⟩
      · rintro ⟨h1, h2 | h2⟩
        · exact ⟨h1, Or.inl h2.symm⟩
        · exact ⟨h1, Or.inr h2.symm⟩
    · intro u hu e he
      have hu : u < n := by
        have : u ∈ G.nodes := hu
        rw [hnodes] at this; exact List.mem_range.1 this
      exact ((mem_segOf hL).1 (hmem u hu e he)).2.2.2
    · intro u hu e he
      have hu : u < n := by
        have : u ∈ G.nodes := hu
        rw [hnodes] at this; exact List.mem_range.1 this
      exact ((mem_segOf hL).1 (hmem u hu e he)).2.2.1

/-- two sorted permutations with distinct keys are equal -/
theorem sorted_unique {α : Type} {key : α → Nat} {a b : List α} (hp : a.Perm b) (hnd : (b.map key).Nodup)
    (ha : a.Pairwise (fun x y => key x ≤ key y)) (hb : b.Pairwise (fun x y => key x ≤ key y)) : a = b := by
  have inj : ∀ x ∈ b, ∀ y ∈ b, key x = key y → x = y := fun x hx y hy h => List.inj_on_of_nodup_map hnd hx hy h
  refine hp.eq_of_pairwise ?_ ha hb
  intro x y hx hy h1 h2
  exact inj x (hp.mem_iff.1 hx) y hy (by omega)

/-- the targets of a sorted segment do not depend on the schedule -/
theorem sorted_targets {a b : List GEdge} (hp : a.Perm b) (ha : a.Pairwise (fun x y => x.tgt ≤ y.tgt))
    (hb : b.Pairwise (fun x y => x.tgt ≤ y.tgt)) : a.map GEdge.tgt = b.map GEdge.tgt := by
  refine (hp.map _).eq_of_pairwise (le := (· ≤ ·)) ?_ (by rw [List.pairwise_map]; exact ha)
    (by rw [List.pairwise_map]; exact hb)
  intro x y _ _ h1 h2; omega

end

end SG
end Verif
