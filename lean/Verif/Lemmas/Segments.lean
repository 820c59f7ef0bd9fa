import Verif.Model.Contraction
import Mathlib.Data.List.Sort
import Mathlib.Algebra.Order.BigOperators.Group.List
import Mathlib.Algebra.BigOperators.Group.List.Basic
namespace Verif
open SMap (wr)

/-! ### Segments -/

theorem readSeg_length (a : Nat → Nat) (s n : Nat) : (readSeg a s n).length = n := by simp [readSeg]

theorem readSeg_congr {a b : Nat → Nat} {s n : Nat} (h : ∀ i < n, a (s + i) = b (s + i)) :
    readSeg a s n = readSeg b s n := by
  unfold readSeg
  apply List.map_congr_left
  intro i hi
  exact h i (List.mem_range.1 hi)

theorem readSeg_getD {a : Nat → Nat} {s n i : Nat} (h : i < n) : (readSeg a s n).getD i 0 = a (s + i) := by
  simp [readSeg, List.getD, h]

theorem writeSeg_in {a : Nat → Nat} {s : Nat} {l : List Nat} {i : Nat} (h : i < l.length) :
    writeSeg a s l (s + i) = l.getD i 0 := by
  unfold writeSeg
  rw [if_pos (by omega)]
  congr 1; omega

theorem writeSeg_out {a : Nat → Nat} {s : Nat} {l : List Nat} {p : Nat} (h : p < s ∨ s + l.length ≤ p) :
    writeSeg a s l p = a p := by
  unfold writeSeg
  rw [if_neg (by omega)]

theorem readSeg_writeSeg_take {a : Nat → Nat} {s k : Nat} {l : List Nat} (h : k ≤ l.length) :
    readSeg (writeSeg a s l) s k = l.take k := by
  apply List.ext_getElem
  · simp [readSeg, h]
  · intro i h1 h2
    simp only [readSeg_length] at h1
    have : i < l.length := by omega
    simp only [readSeg, List.getElem_map, List.getElem_range, List.getElem_take]
    rw [writeSeg_in this]
    simp [List.getD, this]

theorem readSeg_writeSeg_same {a : Nat → Nat} {s : Nat} {l : List Nat} :
    readSeg (writeSeg a s l) s l.length = l := by
  rw [readSeg_writeSeg_take (Nat.le_refl _), List.take_length]

theorem readSeg_writeSeg_disj {a : Nat → Nat} {s t n : Nat} {l : List Nat}
    (h : t + n ≤ s ∨ s + l.length ≤ t) : readSeg (writeSeg a s l) t n = readSeg a t n := by
  apply readSeg_congr
  intro i hi
  exact writeSeg_out (by omega)

theorem readSeg_append (a : Nat → Nat) (s m n : Nat) :
    readSeg a s (m + n) = readSeg a s m ++ readSeg a (s + m) n := by
  unfold readSeg
  rw [List.range_add, List.map_append, List.map_map]
  congr 1
  apply List.map_congr_left
  intro i _
  simp [Nat.add_assoc]

theorem readSeg_succ (a : Nat → Nat) (s n : Nat) : readSeg a s (n + 1) = a s :: readSeg a (s + 1) n := by
  rw [Nat.add_comm, readSeg_append]
  simp [readSeg]

/-! ### Prefix sums -/

theorem psum_zero (x : Nat → Nat) : psum x 0 = 0 := rfl
theorem psum_succ (x : Nat → Nat) (i : Nat) : psum x (i + 1) = psum x i + x i := by
  simp [psum, List.range_succ]

theorem psum_mono (x : Nat → Nat) {i j : Nat} (h : i ≤ j) : psum x i ≤ psum x j := by
  induction h with
  | refl => exact Nat.le_refl _
  | step _ ih => rw [psum_succ]; omega

theorem psum_le_of_lt (x : Nat → Nat) {i j : Nat} (h : i < j) : psum x i + x i ≤ psum x j := by
  rw [← psum_succ]
  exact psum_mono x h

theorem psum_congr {x y : Nat → Nat} {n : Nat} (h : ∀ i < n, x i = y i) : psum x n = psum y n := by
  unfold psum
  rw [List.map_congr_left]
  intro i hi
  exact h i (List.mem_range.1 hi)

theorem psum_disj (x : Nat → Nat) {i j : Nat} (h : i ≠ j) :
    psum x i + x i ≤ psum x j ∨ psum x j + x j ≤ psum x i := by
  rcases Nat.lt_or_gt_of_ne h with h | h
  · exact Or.inl (psum_le_of_lt x h)
  · exact Or.inr (psum_le_of_lt x h)

/-! ### Loops with independent iterations -/

/-- If the step for `c` turns `P c` into `Q c` and steps for other indices preserve both, then after
the loop `Q` holds for every visited index, in whatever order the indices are visited. -/
theorem foldl_local {S : Type} (step : S → Nat → S) (P Q : Nat → S → Prop) :
    ∀ (order : List Nat) (s : S), order.Nodup →
    (∀ s c, c ∈ order → P c s → Q c (step s c)) →
    (∀ s c d, c ∈ order → d ∈ order → d ≠ c → P d s → P d (step s c)) →
    (∀ s c d, c ∈ order → d ∈ order → d ≠ c → Q d s → Q d (step s c)) →
    (∀ c ∈ order, P c s) → ∀ c ∈ order, Q c (order.foldl step s) := by
  suffices H : ∀ (order all : List Nat) (s : S), order.Nodup → (∀ c ∈ order, c ∈ all) →
      (∀ s c, c ∈ all → P c s → Q c (step s c)) →
      (∀ s c d, c ∈ all → d ∈ all → d ≠ c → P d s → P d (step s c)) →
      (∀ s c d, c ∈ all → d ∈ all → d ≠ c → Q d s → Q d (step s c)) →
      (∀ c ∈ order, P c s) → ∀ c ∈ all, (c ∈ order ∨ Q c s) → Q c (order.foldl step s) by
    intro order s hn h1 h2 h3 hP c hc
    exact H order order s hn (fun _ h => h) h1 h2 h3 hP c hc (Or.inl hc)
  intro order
  induction order with
  | nil =>
    intro all s _ _ _ _ _ _ c _ h
    rcases h with h | h
    · simp at h
    · exact h
  | cons a order ih =>
    intro all s hn hall h1 h2 h3 hP c hc h
    rw [List.foldl_cons]
    have hn' := List.nodup_cons.1 hn
    have ha : a ∈ all := hall a (by simp)
    apply ih all (step s a) hn'.2 (fun c h => hall c (by simp [h])) h1 h2 h3
    · intro d hd
      exact h2 s a d ha (hall d (by simp [hd])) (fun e => hn'.1 (e ▸ hd)) (hP d (by simp [hd]))
    · exact hc
    · by_cases hca : c = a
      · right; subst hca
        exact h1 s c hc (hP c (by simp))
      · rcases h with h | h
        · left
          simpa [hca] using h
        · right
          exact h3 s a c ha hc hca h

/-- An invariant of a loop. -/
theorem foldl_inv {S : Type} {α : Type} (step : S → α → S) (I : S → Prop) (order : List α)
    (hstep : ∀ s c, c ∈ order → I s → I (step s c)) (s : S) (h0 : I s) : I (order.foldl step s) := by
  induction order generalizing s with
  | nil => exact h0
  | cons a order ih =>
    rw [List.foldl_cons]
    exact ih (fun s c hc => hstep s c (by simp [hc])) _ (hstep s a (by simp) h0)

/-! ### Sorting and `std::unique` -/

theorem sortIds_perm (l : List Nat) : (sortIds l).Perm l := List.mergeSort_perm l _

theorem sortIds_sorted (l : List Nat) : (sortIds l).Pairwise (· ≤ ·) := by
  have := List.pairwise_mergeSort (le := fun a b : Nat => decide (a ≤ b))
    (by intro a b c; simp; omega) (by intro a b; simp; omega) l
  simpa [sortIds] using this

theorem mem_sortIds {l : List Nat} {x : Nat} : x ∈ sortIds l ↔ x ∈ l := (sortIds_perm l).mem_iff

theorem mem_uniq {x : Nat} : ∀ {l : List Nat}, x ∈ uniq l ↔ x ∈ l
  | [] => by simp [uniq]
  | [a] => by simp [uniq]
  | a :: b :: l => by
    unfold uniq
    split
    · rename_i h
      rw [mem_uniq]
      subst h
      simp
    · rw [List.mem_cons, mem_uniq, List.mem_cons (a := x) (b := a)]

theorem uniq_sorted : ∀ {l : List Nat}, l.Pairwise (· ≤ ·) → (uniq l).Pairwise (· < ·)
  | [], _ => by simp [uniq]
  | [a], _ => by simp [uniq]
  | a :: b :: l, h => by
    have h' := List.pairwise_cons.1 h
    unfold uniq
    split
    · exact uniq_sorted h'.2
    · rename_i hab
      rw [List.pairwise_cons]
      refine ⟨?_, uniq_sorted h'.2⟩
      intro x hx
      rw [mem_uniq] at hx
      have h1 := h'.1 b (by simp)
      rcases List.mem_cons.1 hx with h2 | h2
      · omega
      · have := (List.pairwise_cons.1 h'.2).1 x h2
        omega

theorem uniq_length_le : ∀ (l : List Nat), (uniq l).length ≤ l.length
  | [] => by simp [uniq]
  | [a] => by simp [uniq]
  | a :: b :: l => by
    have := uniq_length_le (b :: l)
    unfold uniq
    split <;> simp at * <;> omega

theorem sorted_nodup {l : List Nat} (h : l.Pairwise (· < ·)) : l.Nodup :=
  h.imp (fun h => Nat.ne_of_lt h)

/-- strictly ascending lists with the same members are equal -/
theorem sorted_ext {l l' : List Nat} (h : l.Pairwise (· < ·)) (h' : l'.Pairwise (· < ·))
    (hm : ∀ x, x ∈ l ↔ x ∈ l') : l = l' := by
  have hp : l.Perm l' := (List.perm_ext_iff_of_nodup (sorted_nodup h) (sorted_nodup h')).2 hm
  exact List.Perm.eq_of_pairwise (le := (· < ·)) (by intro a b _ _ h1 h2; omega) h h' hp

theorem stripInvalid_prefix (l : List Nat) : Contract.stripInvalid l <+: l := by
  unfold Contract.stripInvalid
  have := List.dropWhile_suffix (l := l.reverse) (fun x => decide (x = kInvalid))
  rw [← List.reverse_prefix] at this
  simpa using this

theorem mem_stripInvalid {l : List Nat} (hs : l.Pairwise (· < ·)) (hb : ∀ x ∈ l, x ≤ kInvalid) {x : Nat} :
    x ∈ Contract.stripInvalid l ↔ x ∈ l ∧ x ≠ kInvalid := by
  unfold Contract.stripInvalid
  rw [List.mem_reverse]
  have hr : l.reverse.Pairwise (· > ·) := by rw [List.pairwise_reverse]; exact hs
  rw [← List.mem_reverse (as := l)]
  have hb' : ∀ x ∈ l.reverse, x ≤ kInvalid := by simpa using hb
  revert hr hb'
  generalize l.reverse = r
  intro hr hb'
  induction r with
  | nil => simp
  | cons a r ih =>
    have h' := List.pairwise_cons.1 hr
    rw [List.dropWhile_cons]
    split
    · rename_i h
      have h : a = kInvalid := by simpa using h
      refine Iff.trans (ih h'.2 (fun y hy => hb' y (List.mem_cons_of_mem a hy))) ?_
      constructor
      · rintro ⟨h1, h2⟩; exact ⟨by simp [h1], h2⟩
      · rintro ⟨h1, h2⟩
        rcases List.mem_cons.1 h1 with h3 | h3
        · exact absurd (h3.trans h) h2
        · exact ⟨h3, h2⟩
    · rename_i h
      have h : a ≠ kInvalid := by simpa using h
      constructor
      · intro hx
        refine ⟨hx, ?_⟩
        rcases List.mem_cons.1 hx with h3 | h3
        · exact h3 ▸ h
        · have := h'.1 x h3
          have := hb' a (by simp)
          intro h4
          omega
      · exact fun h => h.1

end Verif
