import Verif.Lemmas.Steiner9
import Verif.Model.Steiner32
/-!
# No overflow; the set enumerator for sets larger than the ground set
-/
namespace Verif.Steiner
open Verif.WGraph

/-- all entries are between 0 and `kInvalidDistance` -/
def Bnd (A : Table) : Prop := ∀ i, 0 ≤ A i ∧ A i ≤ kInvalid

theorem add32_eq {a b : Int} (h0 : 0 ≤ a) (h1 : 0 ≤ b) (h : a + b ≤ 2 ^ 31 - 1) : add32 a b = a + b := by
  unfold add32
  rw [Int.bmod_def]
  norm_num
  omega

theorem kInvalid_val : kInvalid = 715827882 := by decide

theorem Bnd.set_min {A : Table} (h : Bnd A) (i : Nat) {x : Int} (hx : 0 ≤ x) : Bnd (A.set i (min (A i) x)) := by
  intro j
  rw [Table.set_apply]
  have := h i
  split
  · omega
  · exact h j

theorem foldl_congr_bnd {β : Type} {f g : Table → β → Table} (l : List β) (hfg : ∀ A, ∀ b ∈ l, Bnd A → f A b = g A b ∧ Bnd (g A b)) :
    ∀ A, Bnd A → l.foldl f A = l.foldl g A ∧ Bnd (l.foldl g A) := by
  induction l with
  | nil => intro A h; exact ⟨rfl, h⟩
  | cons b l ih =>
    intro A h
    obtain ⟨h1, h2⟩ := hfg A b (by simp) h
    rw [List.foldl_cons, List.foldl_cons, h1]
    exact ih (fun A c hc => hfg A c (List.mem_cons_of_mem _ hc)) _ h2

theorem floydBody32_eq (n k u v : Nat) {A : Table} (h : Bnd A) : floydBody32 n k u v A = floydBody n k u v A ∧ Bnd (floydBody n k u v A) := by
  have h1 := h (idx2 n u k)
  have h2 := h (idx2 n k v)
  have hk := kInvalid_val
  unfold floydBody32 floydBody
  rw [add32_eq h1.1 h2.1 (by omega)]
  exact ⟨rfl, h.set_min _ (by omega)⟩

theorem initMatrix_bnd (n : Nat) (arcs : List Arc) (hw : ∀ a ∈ arcs, 0 ≤ a.2.2 ∧ a.2.2 ≤ kInvalid) {A : Table} (h : Bnd A) :
    Bnd (initMatrix n arcs A) := by
  unfold initMatrix
  have h1 : Bnd ((List.range n).foldl (fun A u => A.set (idx2 n u u) 0) A) := by
    refine (foldl_congr_bnd (f := fun A u => Table.set A (idx2 n u u) 0) (List.range n) ?_ A h).2
    intro A b _ hA
    refine ⟨rfl, fun j => ?_⟩
    rw [Table.set_apply]
    have := kInvalid_val
    split
    · omega
    · exact hA j
  refine (foldl_congr_bnd (f := fun A (a : Arc) => Table.set A (idx2 n a.1 a.2.1) a.2.2) arcs ?_ _ h1).2
  intro A a ha hA
  refine ⟨rfl, fun j => ?_⟩
  rw [Table.set_apply]
  split
  · exact hw a ha
  · exact hA j

theorem allPairs32_eq (n : Nat) (arcs : List Arc) (hw : ∀ a ∈ arcs, 0 ≤ a.2.2 ∧ a.2.2 ≤ kInvalid) {A : Table} (h : Bnd A) :
    allPairs32 n arcs A = allPairs n arcs A ∧ Bnd (allPairs n arcs A) := by
  unfold allPairs32 allPairs floydPhase floydRow
  refine foldl_congr_bnd _ (fun A k _ hA => ?_) _ (initMatrix_bnd n arcs hw h)
  refine foldl_congr_bnd _ (fun A u _ hA => ?_) _ hA
  refine foldl_congr_bnd _ (fun A v _ hA => ?_) _ hA
  exact floydBody32_eq n k u v hA

theorem minDist32_eq {n : Nat} {D : Finset Nat} (u : Nat) {A : Table} (h : Bnd A) : minDist32 n D u A = minDist n D u A := by
  have hk := kInvalid_val
  unfold minDist32 minDist
  generalize maxW = m
  generalize subsetEnum n D = l
  induction l generalizing m with
  | nil => rfl
  | cons E l ih =>
    have h1 := h (setIdx n (insert u E))
    have h2 := h (setIdx n (insert u (symmDiff D E)))
    rw [List.foldl_cons, List.foldl_cons, add32_eq h1.1 h2.1 (by omega)]
    exact ih _

theorem minDist_bnd {n : Nat} {D : Finset Nat} (hD : ∀ x ∈ D, x < n) (hc : 2 ≤ D.card) (u : Nat) {A : Table} (h : Bnd A) :
    0 ≤ minDist n D u A ∧ minDist n D u A ≤ 2 * kInvalid := by
  constructor
  · unfold minDist
    have h0 : (0 : Int) ≤ maxW := by decide
    generalize maxW = m at h0
    generalize subsetEnum n D = l
    induction l generalizing m with
    | nil => exact h0
    | cons E l ih =>
      have h1 := h (setIdx n (insert u E))
      have h2 := h (setIdx n (insert u (symmDiff D E)))
      rw [List.foldl_cons]
      exact ih _ (by omega)
  · obtain ⟨x, hx⟩ : D.Nonempty := Finset.card_pos.1 (by omega)
    have hE : ({x} : Finset Nat) ∈ subsetEnum n D := by
      rw [mem_subsetEnum hD]
      refine ⟨Finset.singleton_subset_iff.2 hx, Finset.singleton_ne_empty _, fun e => ?_⟩
      rw [← e, Finset.card_singleton] at hc
      omega
    have h1 := minDist_le (u := u) (A := A) hE
    have h2 := h (setIdx n (insert u {x}))
    have h3 := h (setIdx n (insert u (symmDiff D {x})))
    omega

theorem relaxAll32_eq {n : Nat} {D : Finset Nat} (hD : ∀ x ∈ D, x < n) (hc : 2 ≤ D.card) (u : Nat) {A : Table} (h : Bnd A) :
    relaxAll32 n D u A = relaxAll n D u A ∧ Bnd (relaxAll n D u A) := by
  unfold relaxAll32 relaxAll
  obtain ⟨m1, m2⟩ := minDist_bnd hD hc u h
  rw [minDist32_eq u h]
  dsimp only
  refine foldl_congr_bnd _ (fun B v _ hB => ?_) _ h
  have h1 := hB (idx2 n u v)
  have hk := kInvalid_val
  rw [add32_eq h1.1 m1 (by omega)]
  exact ⟨rfl, hB.set_min _ (by omega)⟩

theorem precompute32_eq {n : Nat} (hn0 : 0 < n) (hn64 : n < 2 ^ 64) {s : Nat} (hs : s ≤ n + 1) {arcs : List Arc}
    (hw : ∀ a ∈ arcs, 0 ≤ a.2.2 ∧ a.2.2 ≤ kInvalid) :
    precompute32 n arcs s = precompute n arcs s ∧ Bnd (precompute n arcs s) := by
  unfold precompute32 precompute compute32 compute
  have h0 : Bnd (fun _ => kInvalid) := by intro i; have := kInvalid_val; dsimp only; omega
  obtain ⟨e1, e2⟩ := allPairs32_eq n arcs hw h0
  rw [e1]
  refine foldl_congr_bnd _ (fun A m hm hA => ?_) _ e2
  rw [List.mem_range'_1] at hm
  obtain ⟨_, _, e3⟩ := setEnum_spec (n := n) (m := m) hn64 hn0 (by omega)
  refine foldl_congr_bnd _ (fun A D hD hA => ?_) _ hA
  obtain ⟨d1, d2⟩ := (e3 D).1 hD
  unfold processSet
  refine foldl_congr_bnd _ (fun A u _ hA => ?_) _ hA
  exact relaxAll32_eq d1 (by omega) u hA

/-! ### Sets larger than the ground set -/

theorem nextSet_pairwise (l : List Nat) : ∀ (b : Nat) (B : Finset Nat), l.Pairwise (· > ·) → (nextSet b l B).1.Pairwise (· > ·) ∧
    ((nextSet b l B).2.2 = true → ∃ h t, (nextSet b l B).1 = h :: t) := by
  induction l with
  | nil => intro b B _; simp [nextSet]
  | cons c rest ih =>
    intro b B hp
    rw [List.pairwise_cons] at hp
    rw [nextSet]
    split
    · refine ⟨List.pairwise_cons.2 ⟨fun a ha => ?_, hp.2⟩, fun _ => ⟨_, _, rfl⟩⟩
      have := hp.1 a ha
      omega
    · obtain ⟨i1, i2⟩ := ih c (B.erase c) hp.2
      dsimp only
      split
      · rename_i hr
        obtain ⟨h, t, e⟩ := i2 hr
        refine ⟨?_, fun _ => ⟨_, _, rfl⟩⟩
        dsimp only
        rw [e] at i1 ⊢
        refine List.pairwise_cons.2 ⟨fun a ha => ?_, i1⟩
        simp only [List.headD_cons]
        rcases List.mem_cons.1 ha with rfl | ha
        · omega
        · have := (List.pairwise_cons.1 i1).1 a ha
          omega
      · refine ⟨List.pairwise_cons.2 hp, fun h => by cases h⟩

theorem endCur_not_pairwise {n m : Nat} (hn0 : 0 < n) (hn64 : n < 2 ^ 64) (hm : n < m) : ¬ (SetIter.endCur n m).2.Pairwise (· > ·) := by
  intro h
  unfold SetIter.endCur at h
  dsimp only at h
  rw [List.pairwise_iff_getElem] at h
  have := h 0 n (by simp; omega) (by simp; omega) hn0
  simp only [List.getElem_map, List.getElem_range] at this
  rw [show n + 2 ^ 64 - (n + 1) = 2 ^ 64 - 1 by omega, Nat.mod_eq_of_lt (by omega : 2 ^ 64 - 1 < 2 ^ 64)] at this
  have h2 : (n + 2 ^ 64 - (0 + 1)) % 2 ^ 64 < 2 ^ 64 := Nat.mod_lt _ (by norm_num)
  omega

theorem enumLoop_diverges {n m : Nat} (hn0 : 0 < n) (hn64 : n < 2 ^ 64) (hm : n < m) : ∀ (fuel : Nat) (s : SetIter), s.cur.Pairwise (· > ·) →
    (enumLoop n m fuel s).2 = false := by
  have hne : ∀ s : SetIter, s.cur.Pairwise (· > ·) → s.atEnd n m = false := by
    intro s hs
    unfold SetIter.atEnd
    rw [Bool.and_eq_false_iff]
    right
    rw [beq_eq_false_iff_ne]
    intro e
    exact endCur_not_pairwise hn0 hn64 hm (e ▸ hs)
  intro fuel
  induction fuel with
  | zero => intro s hs; exact hne s hs
  | succ fuel ih =>
    intro s hs
    rw [enumLoop, if_neg (by rw [hne s hs]; simp)]
    exact ih s.next (nextSet_pairwise s.cur s.bound s.bits hs).1

end Verif.Steiner
