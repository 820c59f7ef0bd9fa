import Verif.Lemmas.Steiner8
/-!
# The connectivity test
-/
namespace Verif.Steiner
open Verif.WGraph
open Relation

/-- there is an arc from `a` to `b` -/
def ArcRel (arcs : List Arc) (a b : Nat) : Prop := b ∈ targets arcs a

theorem mem_targets {arcs : List Arc} {u v : Nat} : v ∈ targets arcs u ↔ ∃ w, (u, v, w) ∈ arcs := by
  unfold targets
  simp only [List.mem_map, List.mem_filter, beq_iff_eq]
  constructor
  · rintro ⟨⟨a, b, w⟩, ⟨h1, h2⟩, h3⟩
    dsimp only at h2 h3
    subst h2; subst h3
    exact ⟨w, h1⟩
  · rintro ⟨w, h⟩
    exact ⟨(u, v, w), ⟨h, rfl⟩, rfl⟩

structure DInv (n : Nat) (arcs : List Arc) (s : Dfs) : Prop where
  reach : ∀ v ∈ s.visited, ReflTransGen (ArcRel arcs) 0 v
  lt : ∀ v ∈ s.visited, v < n
  root : 0 ∈ s.visited
  num : s.num = s.visited.card
  stack : ∀ v ∈ s.stack, v ∈ s.visited
  closed : ∀ v ∈ s.visited, v ∉ s.stack → ∀ w, ArcRel arcs v w → w ∈ s.visited

theorem card_lt_bound {n : Nat} {V : Finset Nat} (h : ∀ v ∈ V, v < n) : V.card ≤ n := by
  have : V ⊆ Finset.range n := fun x hx => Finset.mem_range.2 (h x hx)
  have := Finset.card_le_card this
  rwa [Finset.card_range] at this

theorem dfsFold_spec (l : List Nat) : ∀ s : Dfs,
    (l.foldl dfsEdge s).visited = s.visited ∪ l.toFinset ∧
    (∀ v, v ∈ (l.foldl dfsEdge s).stack ↔ v ∈ s.stack ∨ (v ∈ l ∧ v ∉ s.visited)) ∧
    (l.foldl dfsEdge s).stack.length + s.visited.card = s.stack.length + (l.foldl dfsEdge s).visited.card ∧
    (l.foldl dfsEdge s).num + s.visited.card = s.num + (l.foldl dfsEdge s).visited.card := by
  induction l with
  | nil => intro s; simp
  | cons b l ih =>
    intro s
    rw [List.foldl_cons]
    obtain ⟨i1, i2, i3, i4⟩ := ih (dfsEdge s b)
    by_cases hb : b ∈ s.visited
    · have e : dfsEdge s b = s := if_pos hb
      rw [e] at i1 i2 i3 i4 ⊢
      refine ⟨?_, ?_, i3, i4⟩
      · rw [i1]; ext x; simp only [Finset.mem_union, List.mem_toFinset, List.mem_cons]
        constructor
        · tauto
        · rintro (h | rfl | h)
          · exact Or.inl h
          · exact Or.inl hb
          · exact Or.inr h
      · intro v
        rw [i2]
        constructor
        · rintro (h | ⟨h, h'⟩)
          · exact Or.inl h
          · exact Or.inr ⟨List.mem_cons_of_mem _ h, h'⟩
        · rintro (h | ⟨h, h'⟩)
          · exact Or.inl h
          · rcases List.mem_cons.1 h with rfl | h
            · exact absurd hb h'
            · exact Or.inr ⟨h, h'⟩
    · have e : dfsEdge s b = ⟨b :: s.stack, insert b s.visited, s.num + 1⟩ := if_neg hb
      rw [e] at i1 i2 i3 i4 ⊢
      dsimp only at i1 i2 i3 i4
      rw [Finset.card_insert_of_notMem hb] at i3 i4
      simp only [List.length_cons] at i3
      refine ⟨?_, ?_, by omega, by omega⟩
      · rw [i1]; ext x; simp only [Finset.mem_union, List.mem_toFinset, List.mem_cons, Finset.mem_insert]; tauto
      · intro v
        rw [i2]
        simp only [List.mem_cons, Finset.mem_insert]
        by_cases hv : v = b
        · subst hv; simp [hb]
        · simp [hv]

theorem DInv.step {n : Nat} {arcs : List Arc} (hlt : ∀ a ∈ arcs, a.2.1 < n) {s : Dfs} (h : DInv n arcs s) {hn : Nat} {rest : List Nat}
    (hs : s.stack = hn :: rest) : DInv n arcs ((targets arcs hn).foldl dfsEdge { s with stack := rest }) := by
  obtain ⟨i1, i2, i3, i4⟩ := dfsFold_spec (targets arcs hn) { s with stack := rest }
  dsimp only at i1 i2 i3 i4
  have hhn : hn ∈ s.visited := h.stack hn (by rw [hs]; simp)
  constructor
  · intro v hv
    rw [i1] at hv
    rcases Finset.mem_union.1 hv with hv | hv
    · exact h.reach v hv
    · exact (h.reach hn hhn).tail (List.mem_toFinset.1 hv)
  · intro v hv
    rw [i1] at hv
    rcases Finset.mem_union.1 hv with hv | hv
    · exact h.lt v hv
    · obtain ⟨w, hw⟩ := mem_targets.1 (List.mem_toFinset.1 hv)
      exact hlt _ hw
  · rw [i1]; exact Finset.mem_union_left _ h.root
  · have := h.num; omega
  · intro v hv
    rw [i1]
    rcases (i2 v).1 hv with hv | ⟨hv, _⟩
    · exact Finset.mem_union_left _ (h.stack v (by rw [hs]; exact List.mem_cons_of_mem _ hv))
    · exact Finset.mem_union_right _ (List.mem_toFinset.2 hv)
  · intro v hv hvs w hw
    rw [i1] at hv ⊢
    by_cases hvn : v = hn
    · subst hvn; exact Finset.mem_union_right _ (List.mem_toFinset.2 hw)
    · apply Finset.mem_union_left
      have hns : v ∉ rest := fun e => hvs ((i2 v).2 (Or.inl e))
      have hvv : v ∈ s.visited := by
        by_contra hnv
        rcases Finset.mem_union.1 hv with hv | hv
        · exact hnv hv
        · exact hvs ((i2 v).2 (Or.inr ⟨List.mem_toFinset.1 hv, hnv⟩))
      refine h.closed v hvv ?_ w hw
      rw [hs]
      intro e
      rcases List.mem_cons.1 e with e | e
      · exact hvn e
      · exact hns e

theorem dfsLoop_spec {n : Nat} {arcs : List Arc} (hlt : ∀ a ∈ arcs, a.2.1 < n) : ∀ (fuel : Nat) (s : Dfs), DInv n arcs s →
    s.stack.length + n < fuel + s.visited.card →
    DInv n arcs (dfsLoop n arcs fuel s) ∧ ((dfsLoop n arcs fuel s).stack = [] ∨ n ≤ (dfsLoop n arcs fuel s).num) := by
  intro fuel
  induction fuel with
  | zero =>
    intro s h hf
    have := card_lt_bound h.lt
    omega
  | succ fuel ih =>
    intro s h hf
    rw [dfsLoop]
    split
    · rename_i heq; exact ⟨h, Or.inl heq⟩
    · rename_i hn rest heq
      split
      · refine ih _ (h.step hlt heq) ?_
        obtain ⟨_, _, i3, _⟩ := dfsFold_spec (targets arcs hn) { s with stack := rest }
        dsimp only at i3
        rw [heq] at hf
        simp only [List.length_cons] at hf
        omega
      · rename_i hnum
        exact ⟨h, Or.inr (Nat.le_of_not_lt hnum)⟩

theorem isConnected_iff {n : Nat} (hn : 0 < n) {arcs : List Arc} (hlt : ∀ a ∈ arcs, a.2.1 < n) :
    isConnected n arcs = true ↔ ∀ v < n, ReflTransGen (ArcRel arcs) 0 v := by
  have h0 : DInv n arcs ⟨[0], {0}, 1⟩ := by
    constructor
    · intro v hv; rw [Finset.mem_singleton.1 hv]
    · intro v hv; rw [Finset.mem_singleton.1 hv]; exact hn
    · simp
    · simp
    · intro v hv; simpa using hv
    · intro v hv hv'; exact absurd (by simpa using hv) hv'
  obtain ⟨h1, h2⟩ := dfsLoop_spec hlt (n + 1) _ h0 (by simp; omega)
  unfold isConnected
  generalize dfsLoop n arcs (n + 1) ⟨[0], {0}, 1⟩ = s at h1 h2
  rw [beq_iff_eq]
  have hcard := card_lt_bound h1.lt
  constructor
  · intro h v hv
    have hVn : s.visited = Finset.range n := by
      apply Finset.eq_of_subset_of_card_le
      · exact fun x hx => Finset.mem_range.2 (h1.lt x hx)
      · rw [Finset.card_range, ← h1.num]; exact h.ge
    exact h1.reach v (by rw [hVn]; exact Finset.mem_range.2 hv)
  · intro h
    have hnum := h1.num
    rcases h2 with h2 | h2
    · have hall : ∀ v, ReflTransGen (ArcRel arcs) 0 v → v ∈ s.visited := by
        intro v hv
        induction hv with
        | refl => exact h1.root
        | tail _ hpq ih => exact h1.closed _ ih (by rw [h2]; simp) _ hpq
      have : Finset.range n ⊆ s.visited := fun x hx => hall x (h x (Finset.mem_range.1 hx))
      have := Finset.card_le_card this
      rw [Finset.card_range] at this
      omega
    · omega

variable {G : WGraph}

theorem isConnected_graph (hG : G.WF) (hn : 0 < G.n) {arcs : List Arc} (hr : Represents arcs G) :
    isConnected G.n arcs = true ↔ G.Connected := by
  have hlt : ∀ a ∈ arcs, a.2.1 < G.n := by
    intro a ha
    exact (Adj.ends hG (a := a.1) (b := a.2.1) (hr.sound a ha).1).2.1
  have harc : ∀ a b, ArcRel arcs a b ↔ Adj G.edges a b := by
    intro a b
    unfold ArcRel
    rw [mem_targets]
    constructor
    · rintro ⟨w, h⟩; exact (hr.sound _ h).1
    · intro h; exact ⟨_, hr.complete a b h⟩
  rw [isConnected_iff hn hlt]
  constructor
  · intro h a ha b hb
    have h1 := rtg_mono (fun p q hpq => (harc p q).1 hpq) (h a ha)
    have h2 := rtg_mono (fun p q hpq => (harc p q).1 hpq) (h b hb)
    exact (reach_symm h1).trans h2
  · intro h v hv
    exact rtg_mono (fun p q hpq => (harc p q).2 hpq) (h 0 hn v hv)

end Verif.Steiner
