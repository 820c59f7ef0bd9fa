import Verif.Lemmas.Steiner5
import Verif.Model.SteinerMst
/-!
# Minimum spanning trees of the metric completion
-/
namespace Verif.Steiner
open Verif.WGraph
open Relation

/-! ### The priority queue -/

theorem pqLe_refl (a : PQElem) : pqLe a a = true := by simp [pqLe]

theorem pqLe_total (a b : PQElem) : pqLe a b = true ∨ pqLe b a = true := by
  simp only [pqLe, decide_eq_true_eq]
  omega

theorem pqLe_trans {a b c : PQElem} (h : pqLe a b = true) (h' : pqLe b c = true) : pqLe a c = true := by
  simp only [pqLe, decide_eq_true_eq] at *
  omega

theorem pqTop_spec (l : List PQElem) : ∀ a, pqTop a l ∈ a :: l ∧ ∀ x ∈ a :: l, pqLe (pqTop a l) x = true := by
  induction l with
  | nil => intro a; simp [pqTop, pqLe_refl]
  | cons b l ih =>
    intro a
    have e : pqTop a (b :: l) = pqTop (if pqLe a b then a else b) l := rfl
    rw [e]
    obtain ⟨i1, i2⟩ := ih (if pqLe a b then a else b)
    have hle := i2 _ List.mem_cons_self
    constructor
    · rcases List.mem_cons.1 i1 with h | h
      · rw [h]; split <;> simp
      · exact List.mem_cons_of_mem _ (List.mem_cons_of_mem _ h)
    · intro x hx
      rcases List.mem_cons.1 hx with rfl | hx
      · by_cases hab : pqLe x b = true
        · rw [if_pos hab] at hle ⊢; exact hle
        · rw [if_neg hab] at hle ⊢
          exact pqLe_trans hle ((pqLe_total x b).resolve_left hab)
      · rcases List.mem_cons.1 hx with rfl | hx
        · by_cases hab : pqLe a x = true
          · rw [if_pos hab] at hle ⊢; exact pqLe_trans hle hab
          · rw [if_neg hab] at hle ⊢; exact hle
        · exact i2 x (List.mem_cons_of_mem _ hx)

/-! ### `push` -/

theorem pushFold_spec (n : Nat) (A : Table) (u : Nat) : ∀ (l : List Nat), l.Nodup → ∀ d : MSTData,
    (l.foldl (pushBody n A u) d).rem = d.rem ∧
    (∀ v, (l.foldl (pushBody n A u) d).lightest v = if v ∈ l then min (d.lightest v) (A (idx2 n u v)) else d.lightest v) ∧
    (∀ e : PQElem, e ∈ (l.foldl (pushBody n A u) d).pq ↔ e ∈ d.pq ∨ (e.2 ∈ l ∧ e.1 = A (idx2 n u e.2) ∧ e.1 < d.lightest e.2)) ∧
    (l.foldl (pushBody n A u) d).pq.length ≤ d.pq.length + l.length := by
  intro l
  induction l with
  | nil => intro _ d; simp
  | cons b l ih =>
    intro hnd d
    obtain ⟨hb, hl⟩ := List.nodup_cons.1 hnd
    rw [List.foldl_cons]
    obtain ⟨i1, i2, i3, i4⟩ := ih hl (pushBody n A u d b)
    have h1 : (pushBody n A u d b).rem = d.rem := by unfold pushBody; dsimp only; split <;> rfl
    have h2 : ∀ v, (pushBody n A u d b).lightest v = if v = b then min (d.lightest v) (A (idx2 n u v)) else d.lightest v := by
      intro v
      unfold pushBody
      by_cases hlt : A (idx2 n u b) < d.lightest b
      · simp only [if_pos hlt]
        by_cases hv : v = b
        · subst hv; simp; omega
        · simp [hv]
      · simp only [if_neg hlt]
        by_cases hv : v = b
        · subst hv; simp; omega
        · simp [hv]
    have h3 : ∀ e : PQElem, e ∈ (pushBody n A u d b).pq ↔ e ∈ d.pq ∨ (e.2 = b ∧ e.1 = A (idx2 n u e.2) ∧ e.1 < d.lightest e.2) := by
      rintro ⟨x, v⟩
      unfold pushBody
      by_cases hlt : A (idx2 n u b) < d.lightest b
      · simp only [if_pos hlt, List.mem_cons, Prod.mk.injEq]
        constructor
        · rintro (⟨rfl, rfl⟩ | h)
          · exact Or.inr ⟨rfl, rfl, hlt⟩
          · exact Or.inl h
        · rintro (h | ⟨h, h', _⟩)
          · exact Or.inr h
          · subst h; exact Or.inl ⟨h', rfl⟩
      · simp only [if_neg hlt]
        constructor
        · exact Or.inl
        · rintro (h | ⟨h, h', h''⟩)
          · exact h
          · subst h; rw [h'] at h''; exact absurd h'' hlt
    have h4 : (pushBody n A u d b).pq.length ≤ d.pq.length + 1 := by unfold pushBody; dsimp only; split <;> simp
    refine ⟨by rw [i1, h1], ?_, ?_, by simp only [List.length_cons]; omega⟩
    · intro v
      rw [i2, h2]
      by_cases hv : v = b
      · subst hv; simp [hb]
      · simp [hv]
    · rintro ⟨x, v⟩
      rw [i3, h3]
      simp only [List.mem_cons]
      rw [h2]
      by_cases hv : v = b
      · subst hv; simp [hb]
      · simp [hv]

theorem pushAll_spec {n : Nat} (A : Table) (u : Nat) (d : MSTData) (hR : ∀ x ∈ d.rem, x < n) :
    (pushAll n A u d).rem = d.rem ∧
    (∀ v, (pushAll n A u d).lightest v = if v ∈ d.rem then min (d.lightest v) (A (idx2 n u v)) else d.lightest v) ∧
    (∀ e : PQElem, e ∈ (pushAll n A u d).pq ↔ e ∈ d.pq ∨ (e.2 ∈ d.rem ∧ e.1 = A (idx2 n u e.2) ∧ e.1 < d.lightest e.2)) ∧
    (pushAll n A u d).pq.length ≤ d.pq.length + d.rem.card := by
  have hm : ∀ v, v ∈ bitsOf n d.rem ↔ v ∈ d.rem := by
    intro v; rw [mem_bitsOf]; exact ⟨fun h => h.2, fun h => ⟨hR v h, h⟩⟩
  have hnd : (bitsOf n d.rem).Nodup := (bitsOf_sorted n d.rem).imp (fun h => Nat.ne_of_lt h)
  obtain ⟨h1, h2, h3, h4⟩ := pushFold_spec n A u (bitsOf n d.rem) hnd d
  refine ⟨h1, fun v => ?_, fun e => ?_, ?_⟩
  · have := h2 v; simp only [hm] at this; exact this
  · have := h3 e; simp only [hm] at this; exact this
  · have := bitsOf_length hR; rw [this] at h4; exact h4

/-! ### The exchange argument -/

variable {M : WGraph}

theorem rtg_mono {α : Type} {r s : α → α → Prop} (h : ∀ p q, r p q → s p q) {a b : α} (hr : ReflTransGen r a b) : ReflTransGen s a b := by
  induction hr with
  | refl => exact .refl
  | tail _ hpq ih => exact ih.tail (h _ _ hpq)

/-- the last edge that leaves `T` on a path to `b ∉ T` -/
theorem last_edge {S : Finset (Nat × Nat)} {T : Finset Nat} {a b : Nat} (h : ReflTransGen (Adj S) a b) (ha : a ∈ T) (hb : b ∉ T) :
    ∃ x y, x ∈ T ∧ y ∉ T ∧ Adj S x y ∧ ReflTransGen (fun p q => Adj S p q ∧ p ∉ T ∧ q ∉ T) y b := by
  induction h with
  | refl => exact absurd ha hb
  | @tail b c _ hbc ih =>
    by_cases hbT : b ∈ T
    · exact ⟨b, c, hbT, hb, hbc, .refl⟩
    · obtain ⟨x, y, h1, h2, h3, h4⟩ := ih hbT
      exact ⟨x, y, h1, h2, h3, h4.tail ⟨hbc, hbT, hb⟩⟩

/-- a lightest crossing edge can be added -/
theorem exchange (hM : M.WF) {X T : Finset Nat} {F S : Finset (Nat × Nat)} (hT : M.ConnSub T F) (hTX : T ⊆ X) (hS : M.ConnSub X S) (hFS : F ⊆ S)
    {u v : Nat} (hu : u ∈ T) (hv : v ∈ X) (hvT : v ∉ T) (huv : pair u v ∈ M.edges)
    (hmin : ∀ x ∈ T, ∀ y ∈ X, y ∉ T → pair x y ∈ M.edges → M.wt (pair u v) ≤ M.wt (pair x y)) :
    ∃ S', M.ConnSub X S' ∧ insert (pair u v) F ⊆ S' ∧ M.weight S' ≤ M.weight S := by
  by_cases hin : pair u v ∈ S
  · exact ⟨S, hS, Finset.insert_subset hin hFS, le_refl _⟩
  obtain ⟨x, y, hx, hy, hxy, hpath⟩ := last_edge (hS.conn u (hTX hu) v hv) hu hvT
  have hxyE := hS.edges hxy
  have hyX : y ∈ X := by
    have := hS.ends _ hxy
    rcases pair_ends (a := x) (b := y) with h | h <;> rw [h.1, h.2] at this
    · exact this.2
    · exact this.1
  have hxyF : pair x y ∉ F := by
    intro hF
    have := hT.ends _ hF
    rcases pair_ends (a := x) (b := y) with h | h <;> rw [h.1, h.2] at this
    · exact hy this.2
    · exact hy this.1
  have hle := hmin x hx y hyX hy hxyE
  have hne : pair u v ≠ pair x y := fun h => hin (h ▸ hxy)
  let S' := insert (pair u v) (S.erase (pair x y))
  have hFS' : F ⊆ S.erase (pair x y) := fun e he => Finset.mem_erase.2 ⟨fun h => hxyF (h ▸ he), hFS he⟩
  have hsub : S.erase (pair x y) ⊆ S' := Finset.subset_insert _ _
  -- the ends of the removed edge stay connected
  have hxy' : ReflTransGen (Adj S') x y := by
    have h1 : ReflTransGen (Adj S') x u := reach_mono (fun e he => hsub (hFS' he)) (hT.conn x hx u hu)
    have h2 : Adj S' u v := Finset.mem_insert_self _ _
    have h3 : ReflTransGen (Adj S') y v := by
      have hstep : ∀ p q, (Adj S p q ∧ p ∉ T ∧ q ∉ T) → Adj S' p q := by
       intro p q hpq
       refine hsub (Finset.mem_erase.2 ⟨fun h => ?_, hpq.1⟩)
       have e1 := pair_ends (a := p) (b := q)
       have e2 := pair_ends (a := x) (b := y)
       rw [h] at e1
       rcases e1 with e1 | e1 <;> rcases e2 with e2 | e2
       · exact hpq.2.1 (by rw [← e1.1, e2.1]; exact hx)
       · exact hpq.2.2 (by rw [← e1.2, e2.2]; exact hx)
       · exact hpq.2.2 (by rw [← e1.1, e2.1]; exact hx)
       · exact hpq.2.1 (by rw [← e1.2, e2.2]; exact hx)
      exact rtg_mono hstep hpath
    exact (h1.tail h2).trans (reach_symm h3)
  refine ⟨S', ⟨hS.nodes, ?_, ?_, ?_⟩, ?_, ?_⟩
  · intro e he
    rcases Finset.mem_insert.1 he with rfl | he
    · exact huv
    · exact hS.edges (Finset.mem_of_mem_erase he)
  · intro e he
    rcases Finset.mem_insert.1 he with rfl | he
    · rcases pair_ends (a := u) (b := v) with h | h <;> rw [h.1, h.2]
      · exact ⟨hTX hu, hv⟩
      · exact ⟨hv, hTX hu⟩
    · exact hS.ends _ (Finset.mem_of_mem_erase he)
  · intro a ha b hb
    have := hS.conn a ha b hb
    induction this with
    | refl => exact .refl
    | @tail p q hp hpq ih =>
      have hpX : p ∈ X := by
        have := hS.ends _ hpq
        rcases pair_ends (a := p) (b := q) with h | h <;> rw [h.1, h.2] at this
        · exact this.1
        · exact this.2
      refine (ih hpX).trans ?_
      by_cases hE : pair p q = pair x y
      · have e1 := pair_ends (a := p) (b := q)
        have e2 := pair_ends (a := x) (b := y)
        rw [hE] at e1
        rcases e1 with e1 | e1 <;> rcases e2 with e2 | e2
        · rw [← e1.1, ← e1.2, e2.1, e2.2]; exact hxy'
        · rw [← e1.1, ← e1.2, e2.1, e2.2]; exact reach_symm hxy'
        · rw [← e1.1, ← e1.2, e2.1, e2.2]; exact reach_symm hxy'
        · rw [← e1.1, ← e1.2, e2.1, e2.2]; exact hxy'
      · exact .single (hsub (Finset.mem_erase.2 ⟨hE, hpq⟩))
  · exact Finset.insert_subset (Finset.mem_insert_self _ _) (fun e he => hsub (hFS' he))
  · have h1 : M.weight S' = M.wt (pair u v) + M.weight (S.erase (pair x y)) := by
      unfold weight
      exact Finset.sum_insert (fun h => hin (Finset.mem_of_mem_erase h))
    have h2 : M.wt (pair x y) + M.weight (S.erase (pair x y)) = M.weight S := by
      unfold weight
      exact Finset.add_sum_erase S M.wt hxy
    omega

end Verif.Steiner
