import Verif.Spec.Hypergraph
import Mathlib.Algebra.BigOperators.Group.List.Basic
import Mathlib.Tactic.Ring
namespace Verif

theorem Assign.put_same (Φ : Assign) (u b : Nat) : Φ.put u b u = some b := by simp [Assign.put]
theorem Assign.put_other (Φ : Assign) {u b v : Nat} (h : v ≠ u) : Φ.put u b v = Φ v := by
  simp [Assign.put, h]

theorem countP_put_notMem (Φ : Assign) (u b c : Nat) (l : List Nat) (h : u ∉ l) :
    l.countP (fun v => Φ.put u b v = some c) = l.countP (fun v => Φ v = some c) := by
  apply List.countP_congr
  intro v hv
  have : v ≠ u := by rintro rfl; exact h hv
  simp [Assign.put_other Φ this]

theorem countP_put_mem (Φ : Assign) (u b c : Nat) (l : List Nat) (hn : l.Nodup) (h : u ∈ l) :
    l.countP (fun v => Φ.put u b v = some c) + (if Φ u = some c then 1 else 0) =
      l.countP (fun v => Φ v = some c) + (if c = b then 1 else 0) := by
  induction l with
  | nil => simp at h
  | cons a l ih =>
    rw [List.nodup_cons] at hn
    rw [List.countP_cons, List.countP_cons]
    by_cases ha : a = u
    · subst ha
      rw [countP_put_notMem Φ a b c l hn.1]
      simp only [Assign.put_same, decide_eq_true_eq, Option.some.injEq]
      have : (b = c) = (c = b) := propext eq_comm
      simp only [this]
      omega
    · have hm : u ∈ l := by
        rcases List.mem_cons.1 h with h1 | h1
        · exact absurd h1.symm ha
        · exact h1
      have := ih hn.2 hm
      simp only [Assign.put_other Φ ha]
      omega

theorem HG.pinsIn_put_mem {H : HG} {Φ : Assign} {u b c e : Nat} (hn : (H.pins e).Nodup)
    (h : u ∈ H.pins e) :
    H.pinsIn (Φ.put u b) e c + (if Φ u = some c then 1 else 0) =
      H.pinsIn Φ e c + (if c = b then 1 else 0) := countP_put_mem Φ u b c _ hn h

theorem HG.pinsIn_put_notMem {H : HG} {Φ : Assign} {u b c e : Nat} (h : u ∉ H.pins e) :
    H.pinsIn (Φ.put u b) e c = H.pinsIn Φ e c := countP_put_notMem Φ u b c _ h

theorem HG.pinsIn_le {H : HG} {Φ : Assign} {e b : Nat} : H.pinsIn Φ e b ≤ (H.pins e).length :=
  List.countP_le_length

/-- sum of node weights in a block over a list of nodes -/
def wsum (w : Nat → Int) (Φ : Assign) (b : Nat) (l : List Nat) : Int :=
  ((l.filter (fun v => Φ v = some b)).map w).sum

theorem wsum_nil (w : Nat → Int) (Φ : Assign) (b : Nat) : wsum w Φ b [] = 0 := rfl

theorem wsum_cons (w : Nat → Int) (Φ : Assign) (b v : Nat) (l : List Nat) :
    wsum w Φ b (v :: l) = (if Φ v = some b then w v else 0) + wsum w Φ b l := by
  unfold wsum
  by_cases h : Φ v = some b <;> simp [h]

theorem wsum_append (w : Nat → Int) (Φ : Assign) (b : Nat) (l l' : List Nat) :
    wsum w Φ b (l ++ l') = wsum w Φ b l + wsum w Φ b l' := by
  unfold wsum; simp

theorem wsum_perm (w : Nat → Int) (Φ : Assign) (b : Nat) {l l' : List Nat} (h : l.Perm l') :
    wsum w Φ b l = wsum w Φ b l' := by
  unfold wsum; exact ((h.filter _).map _).sum_eq

theorem wsum_put_notMem (w : Nat → Int) (Φ : Assign) (u b c : Nat) (l : List Nat) (h : u ∉ l) :
    wsum w (Φ.put u b) c l = wsum w Φ c l := by
  unfold wsum
  congr 2
  apply List.filter_congr
  intro v hv
  have : v ≠ u := by rintro rfl; exact h hv
  simp [Assign.put_other Φ this]

theorem wsum_put_mem (w : Nat → Int) (Φ : Assign) (u b c : Nat) (l : List Nat) (hn : l.Nodup)
    (h : u ∈ l) : wsum w (Φ.put u b) c l = wsum w Φ c l + (if c = b then w u else 0)
      - (if Φ u = some c then w u else 0) := by
  induction l with
  | nil => simp at h
  | cons a l ih =>
    rw [List.nodup_cons] at hn
    rw [wsum_cons, wsum_cons]
    by_cases ha : a = u
    · subst ha
      rw [wsum_put_notMem w Φ a b c l hn.1, Assign.put_same]
      have : (some b = some c) = (c = b) := by simp [eq_comm]
      simp only [this]; ring
    · have hm : u ∈ l := by
        rcases List.mem_cons.1 h with h1 | h1
        · exact absurd h1.symm ha
        · exact h1
      rw [ih hn.2 hm, Assign.put_other Φ ha]; ring

theorem HG.blockWeight_put {H : HG} (hn : H.nodes.Nodup) {Φ : Assign} {u b c : Nat}
    (h : u ∈ H.nodes) : H.blockWeight (Φ.put u b) c = H.blockWeight Φ c +
      (if c = b then H.nw u else 0) - (if Φ u = some c then H.nw u else 0) :=
  wsum_put_mem H.nw Φ u b c _ hn h

theorem HG.mem_blocksOf {H : HG} {Φ : Assign} {e b : Nat} :
    b ∈ H.blocksOf Φ e ↔ 0 < H.pinsIn Φ e b := by
  unfold blocksOf pinsIn
  rw [List.mem_toFinset, List.mem_filterMap, List.countP_pos_iff]
  simp

/-- The connectivity is the length of any duplicate-free list of the blocks with a pin. -/
theorem HG.lam_eq_length {H : HG} {Φ : Assign} {e : Nat} {L : List Nat} (hn : L.Nodup)
    (hm : ∀ b, b ∈ L ↔ 0 < H.pinsIn Φ e b) : H.lam Φ e = L.length := by
  unfold lam
  rw [← List.toFinset_card_of_nodup hn]
  congr 1
  ext b
  rw [HG.mem_blocksOf, List.mem_toFinset, hm]

end Verif
