import Verif.Model.Batches
import Verif.Spec.Schedule
import Verif.Lemmas.Segments
/-! Sorted children, groups and iterators. -/
namespace Verif
namespace Uncontract
open Schedule

/-- the contraction history stored in the tree -/
def CTree.forest (t : CTree) : Forest := ⟨t.n, t.par, t.ver, t.start, t.stop⟩

theorem before_iff (t : CTree) (u v : Nat) : t.before u v = true ↔
    t.ver u < t.ver v ∨ (t.ver u = t.ver v ∧ (t.stop v < t.stop u ∨ (t.stop u = t.stop v ∧
      (t.start v < t.start u ∨ (t.start u = t.start v ∧ u < v))))) := by
  unfold CTree.before
  simp only [Bool.or_eq_true, Bool.and_eq_true, decide_eq_true_eq]
  omega

theorem sortChilds_perm (t : CTree) (l : List Nat) : (t.sortChilds l).Perm l := List.mergeSort_perm l _

theorem sortChilds_sorted (t : CTree) {l : List Nat} (hn : l.Nodup) :
    (t.sortChilds l).Pairwise (fun a b => t.before a b = true) := by
  have h : (t.sortChilds l).Pairwise (fun a b => (!t.before b a) = true) := by
    apply List.pairwise_mergeSort
    · intro a b c h1 h2
      simp only [Bool.not_eq_true', ← Bool.not_eq_true, before_iff] at h1 h2 ⊢
      omega
    · intro a b
      simp only [Bool.or_eq_true, Bool.not_eq_true', ← Bool.not_eq_true, before_iff]
      omega
  have hn' : (t.sortChilds l).Nodup := (sortChilds_perm t l).nodup_iff.2 hn
  refine (h.and hn').imp ?_
  intro a b hab
  obtain ⟨h1, h2⟩ := hab
  simp only [Bool.not_eq_true', ← Bool.not_eq_true, before_iff] at h1 ⊢
  omega

/-- what the rest of the proof needs to know about the child lists -/
structure ChildsOK (t : CTree) (ch : Nat → List Nat) : Prop where
  mem : ∀ u v, v ∈ ch u ↔ v < t.n ∧ t.par v = u ∧ v ≠ u
  nodup : ∀ u, (ch u).Nodup
  sorted : ∀ u, (ch u).Pairwise (fun a b => t.before a b = true)

/-- the children of the version in an iterator -/
def expand (t : CTree) (k : Nat) (l : List Nat) : List Nat := l.filter (fun v => decide (t.ver v = k))

theorem grow_append (t : CTree) (k : Nat) (r : List Nat) : ∀ iv, (grow t k iv r).1 ++ (grow t k iv r).2 = r := by
  induction r with
  | nil => intro iv; rfl
  | cons w r ih =>
    intro iv
    unfold grow
    split
    · split
      · simp only [List.cons_append, ih]
      · rfl
    · rfl

theorem grow_ver (t : CTree) (k : Nat) (r : List Nat) : ∀ iv, ∀ x ∈ (grow t k iv r).1, t.ver x = k := by
  induction r with
  | nil => intro iv x hx; simp [grow] at hx
  | cons w r ih =>
    intro iv x hx
    unfold grow at hx
    split at hx
    · rename_i h
      split at hx
      · simp only [List.mem_cons] at hx
        rcases hx with rfl | hx
        · exact h
        · exact ih _ x hx
      · simp at hx
    · simp at hx

theorem intersects_iff {a b : Nat × Nat} (ha : a.1 ≠ kInvalid) (hb : b.1 ≠ kInvalid) (hst : b.2 ≤ a.2) (hap : a.1 ≤ a.2) :
    intersects a b = true ↔ a.1 ≤ b.2 := by
  unfold intersects
  rw [if_neg (by simp [ha, hb])]
  simp only [Bool.or_eq_true, Bool.and_eq_true, decide_eq_true_eq]
  omega

/-- The group collected by the loop: every member ran at the same time as an earlier member, and no
member overlaps with a sibling that is left. -/
theorem grow_spec (t : CTree) (k : Nat) (r : List Nat) : ∀ (iv : Nat × Nat) (A : List Nat),
    r.Pairwise (fun a b => t.before a b = true) →
    (∀ y ∈ r, t.ver y = k → t.start y ≠ kInvalid ∧ t.start y ≤ t.stop y) →
    (∀ y ∈ r, k ≤ t.ver y) →
    (∀ x ∈ A, ∀ y ∈ r, t.ver y = k → t.stop y ≤ t.stop x) →
    (∀ x ∈ A, iv.1 ≤ t.start x ∧ t.stop x ≤ iv.2) →
    (∀ x ∈ A, t.start x ≤ t.stop x) →
    (∃ x ∈ A, iv.1 = t.start x) → iv.1 ≠ kInvalid →
    (∀ x ∈ A ++ (grow t k iv r).1, ∀ y ∈ (grow t k iv r).2, t.ver y = k → ¬ t.forest.Overlap x y) ∧
    (∀ a w b, (grow t k iv r).1 = a ++ w :: b → ∃ x ∈ A ++ a, t.forest.Overlap x w) := by
  induction r with
  | nil =>
    intro iv A _ _ _ _ _ _ _ _
    refine ⟨by simp [grow], ?_⟩
    intro a w b h
    simp [grow] at h
  | cons w r ih =>
    intro iv A hs hiv hk hA hb hp he hinv
    obtain ⟨x0, hx0, hx0e⟩ := he
    have hs' := List.pairwise_cons.1 hs
    unfold grow
    by_cases hw : t.ver w = k
    · simp only [hw, if_true]
      have hstop : ∀ y ∈ r, t.ver y = k → t.stop y ≤ t.stop w := by
        intro y hy hyk
        have := (before_iff t w y).1 (hs'.1 y hy)
        omega
      have hw1 := hiv w (by simp) hw
      have hI := intersects_iff (a := iv) (b := (t.start w, t.stop w)) hinv hw1.1
        (by have := hA x0 hx0 w (by simp) hw; have := (hb x0 hx0).2; simp only; omega)
        (by have := hb x0 hx0; have := hp x0 hx0; omega)
      by_cases hi : intersects iv (t.start w, t.stop w) = true
      · simp only [hi, if_true]
        have hle : iv.1 ≤ t.stop w := hI.1 hi
        have hov : t.forest.Overlap x0 w := by
          have h1 := hA x0 hx0 w (by simp) hw
          unfold Forest.Overlap
          show t.start x0 ≤ t.stop w ∧ t.start w ≤ t.stop x0
          omega
        have := ih (min iv.1 (t.start w), max iv.2 (t.stop w)) (A ++ [w]) hs'.2
          (fun y hy => hiv y (by simp [hy])) (fun y hy => hk y (by simp [hy]))
          (by
            intro x hx y hy hyk
            rcases List.mem_append.1 hx with hx | hx
            · exact hA x hx y (by simp [hy]) hyk
            · simp only [List.mem_singleton] at hx
              subst hx
              exact hstop y hy hyk)
          (by
            intro x hx
            show min iv.1 (t.start w) ≤ t.start x ∧ t.stop x ≤ max iv.2 (t.stop w)
            rcases List.mem_append.1 hx with hx | hx
            · have := hb x hx
              omega
            · simp only [List.mem_singleton] at hx
              subst hx
              omega)
          (by
            intro x hx
            rcases List.mem_append.1 hx with hx | hx
            · exact hp x hx
            · simp only [List.mem_singleton] at hx
              subst hx
              exact hw1.2)
          (by
            show ∃ x ∈ A ++ [w], min iv.1 (t.start w) = t.start x
            by_cases h : iv.1 ≤ t.start w
            · exact ⟨x0, by simp [hx0], by rw [Nat.min_eq_left h, hx0e]⟩
            · exact ⟨w, by simp, by rw [Nat.min_eq_right (by omega)]⟩)
          (by
            show min iv.1 (t.start w) ≠ kInvalid
            by_cases h : iv.1 ≤ t.start w
            · rw [Nat.min_eq_left h]; exact hinv
            · rw [Nat.min_eq_right (by omega)]; exact hw1.1)
        refine ⟨?_, ?_⟩
        · intro x hx
          apply this.1 x
          simpa using hx
        · intro a w' b hab
          cases a with
          | nil =>
            rw [List.nil_append] at hab
            injection hab with h1 h2
            subst h1
            exact ⟨x0, by simpa using hx0, hov⟩
          | cons a0 a =>
            rw [List.cons_append] at hab
            injection hab with h1 h2
            subst h1
            obtain ⟨x, hx, hxo⟩ := this.2 a w' b h2
            exact ⟨x, by simpa using hx, hxo⟩
      · simp only [if_neg hi]
        have hgt : t.stop w < iv.1 := by
          by_contra h
          exact hi (hI.2 (by omega))
        refine ⟨?_, by intro a w b h; simp at h⟩
        intro x hx y hy hyk
        simp only [List.append_nil] at hx
        have h1 := hb x hx
        have h2 : t.stop y ≤ t.stop w := by
          rcases List.mem_cons.1 hy with rfl | hy
          · exact Nat.le_refl _
          · exact hstop y hy hyk
        rintro ⟨o1, o2⟩
        have o1' : t.start x ≤ t.stop y := o1
        omega
    · simp only [if_neg hw]
      refine ⟨?_, by intro a w b h; simp at h⟩
      intro x hx y hy hyk
      have hwk := hk w (by simp)
      rcases List.mem_cons.1 hy with rfl | hy
      · exact absurd hyk hw
      · have := (before_iff t w y).1 (hs'.1 y hy)
        omega

/-- the loop stops at a sibling of another version only if no sibling of the version is left -/
theorem pushRest_expand (t : CTree) (k : Nat) {l : List Nat} (hs : l.Pairwise (fun a b => t.before a b = true))
    (hk : ∀ y ∈ l, k ≤ t.ver y) : (pushRest t k l).flatMap (expand t k) = expand t k l := by
  cases l with
  | nil => rfl
  | cons w r =>
    show (if t.ver w = k then [w :: r] else []).flatMap (expand t k) = _
    split
    · simp
    · rename_i h
      rw [List.flatMap_nil]
      unfold expand
      symm
      rw [List.filter_eq_nil_iff]
      intro y hy
      have hwk := hk w (by simp)
      simp only [decide_eq_true_eq]
      rcases List.mem_cons.1 hy with rfl | hy
      · exact h
      · have := (before_iff t w y).1 ((List.pairwise_cons.1 hs).1 y hy)
        omega

theorem pushIter_expand (t : CTree) (ch : Nat → List Nat) (k u : Nat) :
    (pushIter t ch k u).flatMap (expand t k) = expand t k (ch u) := by
  have h : expand t k ((ch u).dropWhile (fun v => decide (t.ver v ≠ k))) = expand t k (ch u) := by
    generalize ch u = l
    induction l with
    | nil => rfl
    | cons a l ih =>
      rw [List.dropWhile_cons]
      split
      · rename_i h
        rw [ih]
        unfold expand
        rw [List.filter_cons_of_neg]
        simpa using h
      · rfl
  unfold pushIter
  split
  · rename_i heq
    rw [heq] at h
    rw [← h]; rfl
  · rename_i v r heq
    rw [heq] at h
    rw [← h]; simp

theorem count_expand_childs {t : CTree} {ch : Nat → List Nat} (hc : ChildsOK t ch) (k u v : Nat) :
    (expand t k (ch u)).count v =
      if (v < t.n ∧ t.par v ≠ v ∧ t.ver v = k) ∧ t.par v = u then 1 else 0 := by
  have hn : (expand t k (ch u)).Nodup := (hc.nodup u).filter _
  have hm : v ∈ expand t k (ch u) ↔ (v < t.n ∧ t.par v ≠ v ∧ t.ver v = k) ∧ t.par v = u := by
    unfold expand
    rw [List.mem_filter, hc.mem]
    simp only [decide_eq_true_eq]
    constructor
    · rintro ⟨⟨h1, h2, h3⟩, h4⟩
      exact ⟨⟨h1, fun h => h3 (by omega), h4⟩, h2⟩
    · rintro ⟨⟨h1, h2, h3⟩, h4⟩
      exact ⟨⟨h1, h4, fun h => h2 (by omega)⟩, h3⟩
  rw [hn.count]
  simp only [hm]

theorem count_flatMap_pushIter {t : CTree} {ch : Nat → List Nat} (hc : ChildsOK t ch) (k v : Nat) (g : List Nat) :
    ((g.flatMap (pushIter t ch k)).flatMap (expand t k)).count v =
      if v < t.n ∧ t.par v ≠ v ∧ t.ver v = k then g.count (t.par v) else 0 := by
  induction g with
  | nil => simp
  | cons a g ih =>
    rw [List.flatMap_cons, List.flatMap_append, List.count_append, ih, pushIter_expand, count_expand_childs hc,
      List.count_cons]
    by_cases h : v < t.n ∧ t.par v ≠ v ∧ t.ver v = k
    · rw [if_pos h, if_pos h]
      by_cases h2 : t.par v = a
      · rw [if_pos ⟨h, h2⟩, if_pos (by simp [h2])]; omega
      · rw [if_neg (fun hh => h2 hh.2), if_neg (by simpa using fun hh : a = t.par v => h2 hh.symm)]; omega
    · rw [if_neg (fun hh => h hh.1), if_neg h, if_neg h]

end Uncontract
end Verif
