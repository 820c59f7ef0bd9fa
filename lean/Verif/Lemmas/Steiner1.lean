import Verif.Model.Steiner
import Verif.Spec.Steiner
import Mathlib.Tactic.Linarith
import Mathlib.Tactic.Ring
/-!
# All-pair shortest paths
-/
namespace Verif.Steiner
open Verif.WGraph

theorem idx2_inj {n u v u' v' : Nat} (hu : u < n) (hu' : u' < n) (h : idx2 n u v = idx2 n u' v') : u = u' ∧ v = v' := by
  unfold idx2 at h
  have h1 : (u + v * n) % n = (u' + v' * n) % n := by rw [h]
  rw [Nat.add_mul_mod_self_right, Nat.add_mul_mod_self_right, Nat.mod_eq_of_lt hu, Nat.mod_eq_of_lt hu'] at h1
  subst h1
  have h2 : v * n = v' * n := by omega
  exact ⟨rfl, Nat.eq_of_mul_eq_mul_right (by omega) h2⟩

theorem idx2_lt {n u v : Nat} (hu : u < n) (hv : v < n) : idx2 n u v < n * n := by
  unfold idx2
  have : (v + 1) * n ≤ n * n := Nat.mul_le_mul_right n hv
  rw [Nat.add_mul] at this
  omega

theorem Table.set_apply (A : Table) (i : Nat) (x : Int) (j : Nat) : Table.set A i x j = if j = i then x else A j := rfl

/-- value after phase `k` -/
def fwNew (n k : Nat) (A : Table) (u v : Nat) : Int := min (A (idx2 n u v)) (A (idx2 n u k) + A (idx2 n k v))

variable {n k : Nat}

theorem floydRow_spec {A : Table} {u : Nat} (hu : u < n) (hk : k < n) (hkk : A (idx2 n k k) = 0) :
    (∀ u' < n, ∀ v', floydRow n k u A (idx2 n u' v') = if u' = u ∧ v' < n then fwNew n k A u v' else A (idx2 n u' v')) ∧
    ∀ j, n * n ≤ j → floydRow n k u A j = A j := by
  have key : ∀ t ≤ n,
      (∀ u' < n, ∀ v', (List.range t).foldl (fun A v => floydBody n k u v A) A (idx2 n u' v') =
        if u' = u ∧ v' < t then fwNew n k A u v' else A (idx2 n u' v')) ∧
      ∀ j, n * n ≤ j → (List.range t).foldl (fun A v => floydBody n k u v A) A j = A j := by
    intro t
    induction t with
    | zero => intro _; simp
    | succ t ih =>
      intro ht
      obtain ⟨i1, i2⟩ := ih (by omega)
      rw [List.range_succ, List.foldl_append]
      simp only [List.foldl_cons, List.foldl_nil]
      generalize (List.range t).foldl (fun A v => floydBody n k u v A) A = B at i1 i2
      have hB1 : B (idx2 n u k) = A (idx2 n u k) := by
        rw [i1 u hu k]
        split_ifs with h
        · unfold fwNew; rw [hkk]; simp
        · rfl
      have hB2 : B (idx2 n k t) = A (idx2 n k t) := by
        rw [i1 k hk t, if_neg (by omega)]
      have hB3 : B (idx2 n u t) = A (idx2 n u t) := by
        rw [i1 u hu t, if_neg (by omega)]
      constructor
      · intro u' hu' v'
        unfold floydBody Table.set
        by_cases hh : idx2 n u' v' = idx2 n u t
        · obtain ⟨rfl, rfl⟩ := idx2_inj hu' hu hh
          rw [if_pos rfl, if_pos ⟨rfl, by omega⟩, hB1, hB2, hB3]
          rfl
        · rw [if_neg hh, i1 u' hu' v']
          by_cases h1 : u' = u ∧ v' < t
          · rw [if_pos h1, if_pos ⟨h1.1, by omega⟩]
          · rw [if_neg h1, if_neg]
            rintro ⟨rfl, h3⟩
            have : v' = t := by
              by_contra hne
              exact h1 ⟨rfl, by omega⟩
            subst this
            exact hh rfl
      · intro j hj
        unfold floydBody Table.set
        rw [if_neg (by have := idx2_lt hu (show t < n by omega); omega)]
        exact i2 j hj
  exact key n (Nat.le_refl _)

theorem floydPhase_spec {A : Table} (hk : k < n) (hkk : A (idx2 n k k) = 0) :
    (∀ u < n, ∀ v < n, floydPhase n k A (idx2 n u v) = fwNew n k A u v) ∧
    ∀ j, n * n ≤ j → floydPhase n k A j = A j := by
  have hcol : ∀ u, fwNew n k A u k = A (idx2 n u k) := by intro u; unfold fwNew; rw [hkk]; simp
  have hrow : ∀ v, fwNew n k A k v = A (idx2 n k v) := by intro v; unfold fwNew; rw [hkk]; simp
  have key : ∀ t ≤ n,
      (∀ u < n, ∀ v < n, (List.range t).foldl (fun A u => floydRow n k u A) A (idx2 n u v) =
        if u < t then fwNew n k A u v else A (idx2 n u v)) ∧
      ∀ j, n * n ≤ j → (List.range t).foldl (fun A u => floydRow n k u A) A j = A j := by
    intro t
    induction t with
    | zero => intro _; simp
    | succ t ih =>
      intro ht
      obtain ⟨i1, i2⟩ := ih (by omega)
      rw [List.range_succ, List.foldl_append]
      simp only [List.foldl_cons, List.foldl_nil]
      generalize (List.range t).foldl (fun A u => floydRow n k u A) A = B at i1 i2
      have hBc : ∀ u < n, B (idx2 n u k) = A (idx2 n u k) := by
        intro u hu; rw [i1 u hu k hk]; split_ifs
        · exact hcol u
        · rfl
      have hBr : ∀ v < n, B (idx2 n k v) = A (idx2 n k v) := by
        intro v hv; rw [i1 k hk v hv]; split_ifs
        · exact hrow v
        · rfl
      obtain ⟨r1, r2⟩ := floydRow_spec (A := B) (u := t) (n := n) (k := k) (by omega) hk (by rw [hBc k hk, hkk])
      constructor
      · intro u hu v hv
        rw [r1 u hu v]
        by_cases h : u = t
        · subst h
          rw [if_pos ⟨rfl, hv⟩, if_pos (by omega)]
          unfold fwNew
          rw [hBc u hu, hBr v hv, i1 u hu v hv, if_neg (by omega)]
        · rw [if_neg (by rintro ⟨h1, _⟩; exact h h1), i1 u hu v hv]
          by_cases h2 : u < t
          · rw [if_pos h2, if_pos (by omega)]
          · rw [if_neg h2, if_neg (by omega)]
      · intro j hj
        rw [r2 j hj, i2 j hj]
  obtain ⟨k1, k2⟩ := key n (Nat.le_refl _)
  refine ⟨fun u hu v hv => ?_, k2⟩
  have := k1 u hu v hv
  rw [if_pos hu] at this
  exact this

/-- the directed edges of `G`: both directions of every edge, no self loops, no parallel edges with
different weights -/
structure Represents (arcs : List Arc) (G : WGraph) : Prop where
  sound : ∀ a ∈ arcs, pair a.1 a.2.1 ∈ G.edges ∧ a.2.2 = G.wt (pair a.1 a.2.1)
  complete : ∀ a b, pair a b ∈ G.edges → (a, b, G.wt (pair a b)) ∈ arcs

theorem pair_comm (a b : Nat) : pair a b = pair b a := by
  unfold pair
  split_ifs with h1 h2
  · have : a = b := by omega
    rw [this]
  · rfl
  · rfl
  · omega

theorem pair_ends {a b : Nat} : ((pair a b).1 = a ∧ (pair a b).2 = b) ∨ ((pair a b).1 = b ∧ (pair a b).2 = a) := by
  unfold pair; split_ifs <;> simp

theorem pair_mk {e : Nat × Nat} (h : e.1 ≤ e.2) : pair e.1 e.2 = e := by
  unfold pair; rw [if_pos h]

section
variable {G : WGraph} {arcs : List Arc}

theorem Adj.ends (hG : G.WF) {a b : Nat} (h : Adj G.edges a b) : a < G.n ∧ b < G.n ∧ a ≠ b := by
  obtain ⟨h1, h2⟩ := hG.ends _ h
  rcases pair_ends (a := a) (b := b) with ⟨e1, e2⟩ | ⟨e1, e2⟩ <;> rw [e1, e2] at h1 <;> rw [e2] at h2
  · exact ⟨by omega, h2, by omega⟩
  · exact ⟨h2, by omega, by omega⟩

theorem Adj.symm {S : Finset (Nat × Nat)} {a b : Nat} (h : Adj S a b) : Adj S b a := by
  unfold Adj at *; rwa [pair_comm]

theorem Walk.nonneg (hG : G.WF) {a b : Nat} {w : Int} (h : Walk G a b w) : 0 ≤ w := by
  induction h with
  | nil => exact le_refl _
  | cons hadj _ ih => have := hG.nonneg _ hadj; omega

theorem Walk.append {a b c : Nat} {w w' : Int} (h : Walk G a b w) (h' : Walk G b c w') : Walk G a c (w + w') := by
  induction h with
  | nil => simpa using h'
  | cons hadj _ ih =>
    have := Walk.cons hadj (ih h')
    rwa [← Int.add_assoc] at this

open Classical in
/-- the initial matrix -/
theorem initMatrix_spec (hG : G.WF) (hr : Represents arcs G) (A0 : Table) :
    (∀ u < G.n, ∀ v < G.n,
      (Adj G.edges u v → initMatrix G.n arcs A0 (idx2 G.n u v) = G.wt (pair u v)) ∧
      (u = v → initMatrix G.n arcs A0 (idx2 G.n u v) = 0) ∧
      (¬ Adj G.edges u v → u ≠ v → initMatrix G.n arcs A0 (idx2 G.n u v) = A0 (idx2 G.n u v))) ∧
    ∀ j, G.n * G.n ≤ j → initMatrix G.n arcs A0 j = A0 j := by
  have h1 : ∀ t ≤ G.n, (∀ u < G.n, ∀ v < G.n, (List.range t).foldl (fun A u => Table.set A (idx2 G.n u u) 0) A0 (idx2 G.n u v) =
      if u = v ∧ u < t then 0 else A0 (idx2 G.n u v)) ∧
      ∀ j, G.n * G.n ≤ j → (List.range t).foldl (fun A u => Table.set A (idx2 G.n u u) 0) A0 j = A0 j := by
    intro t
    induction t with
    | zero => intro _; simp
    | succ t ih =>
      intro ht
      obtain ⟨i1, i2⟩ := ih (by omega)
      rw [List.range_succ, List.foldl_append]
      simp only [List.foldl_cons, List.foldl_nil]
      constructor
      · intro u hu v hv
        rw [Table.set_apply]
        by_cases hh : idx2 G.n u v = idx2 G.n t t
        · obtain ⟨rfl, rfl⟩ := idx2_inj hu (by omega) hh
          rw [if_pos rfl, if_pos ⟨rfl, by omega⟩]
        · rw [if_neg hh, i1 u hu v hv]
          by_cases h2 : u = v ∧ u < t
          · rw [if_pos h2, if_pos ⟨h2.1, by omega⟩]
          · rw [if_neg h2, if_neg]
            rintro ⟨rfl, h3⟩
            have : u = t := by
              by_contra hne
              exact h2 ⟨rfl, by omega⟩
            subst this
            exact hh rfl
      · intro j hj
        rw [Table.set_apply]
        rw [if_neg (by have := idx2_lt (n := G.n) (u := t) (v := t) (by omega) (by omega); omega)]
        exact i2 j hj
  obtain ⟨i1, i2⟩ := h1 G.n (Nat.le_refl _)
  unfold initMatrix
  generalize (List.range G.n).foldl (fun A u => Table.set A (idx2 G.n u u) 0) A0 = B at i1 i2
  have h2 : ∀ (l : List Arc), (∀ a ∈ l, a ∈ arcs) → ∀ B : Table,
      (∀ u < G.n, ∀ v < G.n,
        l.foldl (fun A a => Table.set A (idx2 G.n a.1 a.2.1) a.2.2) B (idx2 G.n u v) =
        if (∃ w, (u, v, w) ∈ l) then G.wt (pair u v) else B (idx2 G.n u v)) ∧
      ∀ j, G.n * G.n ≤ j → l.foldl (fun A a => Table.set A (idx2 G.n a.1 a.2.1) a.2.2) B j = B j := by
    intro l
    induction l with
    | nil => intro _ B; simp
    | cons a l ih =>
      intro hl B
      simp only [List.foldl_cons]
      obtain ⟨s1, s2⟩ := hr.sound a (hl a (by simp))
      obtain ⟨ha1, ha2, _⟩ := Adj.ends hG s1
      obtain ⟨k1, k2⟩ := ih (fun x hx => hl x (by simp [hx])) (Table.set B (idx2 G.n a.1 a.2.1) a.2.2)
      constructor
      · intro u hu v hv
        rw [k1 u hu v hv]
        by_cases h3 : ∃ w, (u, v, w) ∈ l
        · rw [if_pos h3, if_pos]
          obtain ⟨w, hw⟩ := h3
          exact ⟨w, by simp [hw]⟩
        · rw [if_neg h3]
          rw [Table.set_apply]
          by_cases hh : idx2 G.n u v = idx2 G.n a.1 a.2.1
          · obtain ⟨rfl, rfl⟩ := idx2_inj hu ha1 hh
            rw [if_pos rfl, if_pos ⟨a.2.2, by simp⟩, s2]
          · rw [if_neg hh, if_neg]
            rintro ⟨w, hw⟩
            rcases List.mem_cons.1 hw with rfl | hw
            · exact hh rfl
            · exact h3 ⟨w, hw⟩
      · intro j hj
        rw [k2 j hj]
        rw [Table.set_apply]
        rw [if_neg (by have := idx2_lt (n := G.n) ha1 ha2; omega)]
  obtain ⟨k1, k2⟩ := h2 arcs (fun _ h => h) B
  refine ⟨fun u hu v hv => ⟨fun h => ?_, fun h => ?_, fun h h' => ?_⟩, fun j hj => by rw [k2 j hj, i2 j hj]⟩
  · rw [k1 u hu v hv, if_pos ⟨_, hr.complete u v h⟩]
  · rw [k1 u hu v hv, if_neg, i1 u hu v hv, if_pos ⟨h, hu⟩]
    rintro ⟨w, hw⟩
    exact (Adj.ends hG (hr.sound _ hw).1).2.2 h
  · rw [k1 u hu v hv, if_neg, i1 u hu v hv, if_neg (by rintro ⟨h3, _⟩; exact h' h3)]
    rintro ⟨w, hw⟩
    exact h (hr.sound _ hw).1

/-- invariant of the phases: entries are walk lengths (or invalid), bounded by the edge weights, and
satisfy the triangle inequality for the processed nodes -/
structure FWInv (G : WGraph) (k : Nat) (A : Table) : Prop where
  diag : ∀ u < G.n, A (idx2 G.n u u) = 0
  edge : ∀ u < G.n, ∀ v < G.n, Adj G.edges u v → A (idx2 G.n u v) ≤ G.wt (pair u v)
  real : ∀ u < G.n, ∀ v < G.n, kInvalid ≤ A (idx2 G.n u v) ∨ Walk G u v (A (idx2 G.n u v))
  nonneg : ∀ u < G.n, ∀ v < G.n, 0 ≤ A (idx2 G.n u v)
  tri : ∀ u < G.n, ∀ v < G.n, ∀ x < k, A (idx2 G.n u v) ≤ A (idx2 G.n u x) + A (idx2 G.n x v)
  le : ∀ u < G.n, ∀ v < G.n, u = v ∨ A (idx2 G.n u v) ≤ kInvalid ∨ Adj G.edges u v
  rest : ∀ j, G.n * G.n ≤ j → A j = kInvalid

theorem FWInv.phase {A : Table} (hk : k < G.n) (h : FWInv G k A) : FWInv G (k + 1) (floydPhase G.n k A) := by
  obtain ⟨p1, p2⟩ := floydPhase_spec (A := A) hk (h.diag k hk)
  have hinv : (0 : Int) ≤ kInvalid := by decide
  refine ⟨?_, ?_, ?_, ?_, ?_, ?_, ?_⟩
  · intro u hu
    rw [p1 u hu u hu]; unfold fwNew
    have a1 := h.nonneg u hu k hk
    have a2 := h.nonneg k hk u hu
    have a3 := h.diag u hu
    omega
  · intro u hu v hv hadj
    rw [p1 u hu v hv]
    exact le_trans (min_le_left _ _) (h.edge u hu v hv hadj)
  · intro u hu v hv
    rw [p1 u hu v hv]; unfold fwNew
    rcases min_choice (A (idx2 G.n u v)) (A (idx2 G.n u k) + A (idx2 G.n k v)) with e | e <;> rw [e]
    · exact h.real u hu v hv
    · have a1 := h.nonneg u hu k hk
      have a2 := h.nonneg k hk v hv
      rcases h.real u hu k hk with r1 | r1
      · left; omega
      · rcases h.real k hk v hv with r2 | r2
        · left; omega
        · right; exact Walk.append r1 r2
  · intro u hu v hv
    rw [p1 u hu v hv]; unfold fwNew
    have a1 := h.nonneg u hu k hk
    have a2 := h.nonneg k hk v hv
    have a3 := h.nonneg u hu v hv
    omega
  · intro u hu v hv x hx
    have hxn : x < G.n := by omega
    rw [p1 u hu v hv, p1 u hu x hxn, p1 x hxn v hv]
    unfold fwNew
    by_cases hxk : x = k
    · subst hxk
      have := h.diag x hk
      omega
    · have t1 := h.tri u hu v hv x (by omega)
      have t2 := h.tri u hu k hk x (by omega)
      have t3 := h.tri k hk v hv x (by omega)
      have t4 := h.nonneg k hk x hxn
      have t5 := h.nonneg x hxn k hk
      omega
  · intro u hu v hv
    rw [p1 u hu v hv]; unfold fwNew
    rcases h.le u hu v hv with e | e | e
    · exact Or.inl e
    · right; left; omega
    · exact Or.inr (Or.inr e)
  · intro j hj
    rw [p2 j hj, h.rest j hj]

theorem FWInv.init (hG : G.WF) (hr : Represents arcs G) : FWInv G 0 (initMatrix G.n arcs (fun _ => kInvalid)) := by
  obtain ⟨p1, p2⟩ := initMatrix_spec hG hr (fun _ => kInvalid)
  have hinv : (0 : Int) ≤ kInvalid := by decide
  refine ⟨fun u hu => (p1 u hu u hu).2.1 rfl, fun u hu v hv h => le_of_eq ((p1 u hu v hv).1 h), ?_, ?_, ?_, ?_, p2⟩
  · intro u hu v hv
    obtain ⟨q1, q2, q3⟩ := p1 u hu v hv
    by_cases h1 : Adj G.edges u v
    · right; rw [q1 h1]
      have := Walk.cons h1 (Walk.nil (G := G) v)
      simpa using this
    · by_cases h2 : u = v
      · right; rw [q2 h2]; subst h2; exact Walk.nil u
      · left; rw [q3 h1 h2]
  · intro u hu v hv
    obtain ⟨q1, q2, q3⟩ := p1 u hu v hv
    by_cases h1 : Adj G.edges u v
    · rw [q1 h1]; exact hG.nonneg _ h1
    · by_cases h2 : u = v
      · rw [q2 h2]
      · rw [q3 h1 h2]; exact hinv
  · intro u _ v _ x hx; omega
  · intro u hu v hv
    obtain ⟨q1, q2, q3⟩ := p1 u hu v hv
    by_cases h1 : Adj G.edges u v
    · exact Or.inr (Or.inr h1)
    · by_cases h2 : u = v
      · exact Or.inl h2
      · right; left; rw [q3 h1 h2]

theorem allPairs_inv (hG : G.WF) (hr : Represents arcs G) : FWInv G G.n (allPairs G.n arcs (fun _ => kInvalid)) := by
  have key : ∀ t ≤ G.n, FWInv G t ((List.range t).foldl (fun A k => floydPhase G.n k A) (initMatrix G.n arcs (fun _ => kInvalid))) := by
    intro t
    induction t with
    | zero => intro _; exact FWInv.init hG hr
    | succ t ih =>
      intro ht
      rw [List.range_succ, List.foldl_append]
      exact (ih (by omega)).phase (by omega)
  exact key G.n (Nat.le_refl _)

theorem Walk.end_lt (hG : G.WF) {a b : Nat} {w : Int} (ha : a < G.n) (h : Walk G a b w) : b < G.n := by
  induction h with
  | nil => exact ha
  | cons hadj _ ih => exact ih (Adj.ends hG hadj).2.1

/-- entries are lower bounds of walk lengths -/
theorem FWInv.walk (hG : G.WF) {A : Table} (h : FWInv G G.n A) {u v : Nat} (hu : u < G.n) {w : Int} (hw : Walk G u v w) :
    A (idx2 G.n u v) ≤ w := by
  induction hw with
  | nil a => rw [h.diag a hu]
  | @cons a b c w hadj hw ih =>
    obtain ⟨_, hb, _⟩ := Adj.ends hG hadj
    have hc : c < G.n := Walk.end_lt hG hb hw
    have t := h.tri a hu c hc b hb
    have e := h.edge a hu b hb hadj
    have := ih hb
    omega

end
end Verif.Steiner
