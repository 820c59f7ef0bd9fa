import Verif.Model.PrefixSum
/-!
# C30  Parallel prefix sums equal sequential ones
-/
namespace Verif
open ScanSt

/-- Specification: combination of the values `x i, …, x (j-1)`, left to right, starting with `z`. -/
def foldRange {α : Type} (f : α → α → α) (z : α) (x : Nat → α) (i j : Nat) : α :=
  ((List.range' i (j - i)).map x).foldl f z

section
variable {α : Type} {f : α → α → α} {z : α}

theorem foldl_f_z (hassoc : ∀ x y w, f (f x y) w = f x (f y w)) (hz : ∀ x, f z x = x)
    (hz' : ∀ x, f x z = x) (l : List α) (s : α) : l.foldl f s = f s (l.foldl f z) := by
  induction l generalizing s with
  | nil => simp [hz']
  | cons x l ih => rw [List.foldl_cons, List.foldl_cons, ih (f s x), ih (f z x), hz, hassoc]

theorem foldRange_split (hassoc : ∀ x y w, f (f x y) w = f x (f y w)) (hz : ∀ x, f z x = x)
    (hz' : ∀ x, f x z = x) (x : Nat → α) {i j m : Nat} (h1 : i ≤ j) (h2 : j ≤ m) :
    foldRange f z x i m = f (foldRange f z x i j) (foldRange f z x j m) := by
  unfold foldRange
  have : List.range' i (m - i) = List.range' i (j - i) ++ List.range' j (m - j) := by
    rw [show m - i = (j - i) + (m - j) by omega, ← List.range'_append,
      show i + 1 * (j - i) = j by omega]
  rw [this, List.map_append, List.foldl_append, foldl_f_z hassoc hz hz']

theorem foldRange_self (x : Nat → α) (i : Nat) : foldRange f z x i i = z := by
  simp [foldRange]

theorem foldRange_succ (x : Nat → α) {i j : Nat} (h : i ≤ j) :
    foldRange f z x i (j + 1) = f (foldRange f z x i j) (x j) := by
  unfold foldRange
  rw [show j + 1 - i = (j - i) + 1 by omega, List.range'_concat, List.map_append,
    List.foldl_append]
  simp [show i + (j - i) = j by omega]

theorem preLoop_eq {a : Nat} {mem x : Nat → α} {i l : Nat} (h : i ≤ l) (n : Nat)
    (hm : ∀ k, l ≤ k → k < l + n → mem (a + k) = x k) :
    preLoop f a mem l n (foldRange f z x i l) = foldRange f z x i (l + n) := by
  unfold preLoop
  induction n with
  | zero => simp
  | succ n ih =>
    rw [List.range'_concat, List.foldl_append, ih (fun k h1 h2 => hm k h1 (by omega))]
    simp only [List.foldl_cons, List.foldl_nil, Nat.one_mul]
    rw [hm (l + n) (by omega) (by omega), ← Nat.add_assoc, foldRange_succ x (by omega)]

/-- input and output region either coincide or are disjoint -/
def Regions (a b n : Nat) : Prop := a = b ∨ a + n ≤ b ∨ b + n ≤ a

theorem finLoop_eq {a b N : Nat} {mem x : Nat → α} {l : Nat} (hr : Regions a b N) (n : Nat)
    (hn : l + n ≤ N) (hm : ∀ k, l ≤ k → k < l + n → mem (a + k) = x k) :
    finLoop f a b l n (mem, foldRange f z x 0 l) =
      (fun y => if b + l ≤ y ∧ y < b + l + n then foldRange f z x 0 (y - b + 1) else mem y,
       foldRange f z x 0 (l + n)) := by
  unfold finLoop
  induction n with
  | zero =>
    simp only [List.range'_zero, List.foldl_nil, Nat.add_zero]
    congr 1
    funext y
    rw [if_neg (by omega)]
  | succ n ih =>
    rw [List.range'_concat, List.foldl_append, ih (by omega) (fun k h1 h2 => hm k h1 (by omega))]
    simp only [List.foldl_cons, List.foldl_nil, Nat.one_mul]
    have hread : (if b + l ≤ a + (l + n) ∧ a + (l + n) < b + l + n
        then foldRange f z x 0 (a + (l + n) - b + 1) else mem (a + (l + n))) = x (l + n) := by
      rw [if_neg (by unfold Regions at hr; omega), hm _ (by omega) (by omega)]
    rw [hread, ← foldRange_succ (f := f) (z := z) x (Nat.zero_le (l + n)), ← Nat.add_assoc]
    congr 1
    funext y
    by_cases h1 : y = b + l + n
    · rw [if_pos h1, if_pos (by omega)]
      congr 1
      omega
    · rw [if_neg h1]
      by_cases h2 : b + l ≤ y ∧ y < b + l + n
      · rw [if_pos h2, if_pos (by omega)]
      · rw [if_neg h2, if_neg (by omega)]

structure ScanInv (f : α → α → α) (z : α) (a b n : Nat) (x : Nat → α) (g : ScanGhost)
    (s : ScanSt α) : Prop where
  le : ∀ c, (g.cov c).1 ≤ (g.cov c).2
  sum : ∀ c, s.sum c = foldRange f z x (g.cov c).1 (g.cov c).2
  undone : ∀ i < n, g.done i = false → s.mem (a + i) = x i
  done : ∀ i < n, g.done i = true → s.mem (b + i) = foldRange f z x 0 (i + 1)

theorem ScanInv.step (hassoc : ∀ x y w, f (f x y) w = f x (f y w)) (hcomm : ∀ x y, f x y = f y x)
    (hz : ∀ x, f z x = x) {a b n : Nat} (hr : Regions a b n) {x : Nat → α} {g g' : ScanGhost}
    {s : ScanSt α} {st : ScanStep} (h : ScanInv f z a b n x g s) (hs : ScanGhost.Step n g st g') :
    ScanInv f z a b n x g' (s.step f z a b st) := by
  have hz' : ∀ x, f x z = x := fun x => by rw [hcomm, hz]
  cases hs with
  | split c p =>
    refine ⟨fun d => ?_, fun d => ?_, h.undone, h.done⟩
    · by_cases hd : d = c <;> simp [hd, h.le]
    · by_cases hd : d = c <;> simp [ScanSt.step, hd, foldRange_self, h.sum]
  | @pre c l r hl hlr hrn hnd =>
    refine ⟨fun d => ?_, fun d => ?_, h.undone, h.done⟩
    · have := h.le c
      by_cases hd : d = c
      · simp [hd]; omega
      · simp [hd, h.le]
    · by_cases hd : d = c
      · simp only [ScanSt.step, hd, if_true]
        have hle := h.le c
        rw [h.sum c, hl, preLoop_eq (by omega) (r - l)
          (fun k h1 h2 => h.undone k (by omega) (hnd k h1 (by omega))),
          show l + (r - l) = r by omega]
      · simp [ScanSt.step, hd, h.sum]
  | @fin c l r hc hlr hrn hnd =>
    have hf := finLoop_eq (f := f) (z := z) (mem := s.mem) (x := x) (l := l) hr (r - l) (by omega)
      (fun k h1 h2 => h.undone k (by omega) (hnd k h1 (by omega)))
    have hsum : s.sum c = foldRange f z x 0 l := by rw [h.sum c, hc]
    refine ⟨fun d => ?_, fun d => ?_, fun i hi hu => ?_, fun i hi hu => ?_⟩
    · by_cases hd : d = c <;> simp [hd, h.le]
    · by_cases hd : d = c
      · simp only [ScanSt.step, hd, if_true]
        rw [hsum, hf, show l + (r - l) = r by omega]
      · simp [ScanSt.step, hd, h.sum]
    · simp only [ScanSt.step]
      rw [hsum, hf]
      simp only at hu ⊢
      by_cases hlr' : l ≤ i ∧ i < r
      · simp [hlr'] at hu
      · rw [if_neg hlr'] at hu
        rw [if_neg (by unfold Regions at hr; omega)]
        exact h.undone i hi hu
    · simp only [ScanSt.step]
      rw [hsum, hf]
      simp only at hu ⊢
      by_cases hlr' : l ≤ i ∧ i < r
      · rw [if_pos (by omega)]
        congr 1
        omega
      · rw [if_neg hlr'] at hu
        rw [if_neg (by omega)]
        exact h.done i hi hu
  | @join right left hj =>
    refine ⟨fun d => ?_, fun d => ?_, h.undone, h.done⟩
    · by_cases hd : d = right
      · have h1 := h.le left; have h2 := h.le right
        simp [hd]; omega
      · simp [hd, h.le]
    · by_cases hd : d = right
      · simp only [ScanSt.step, hd, if_true]
        rw [h.sum right, h.sum left, ← hj, hcomm,
          ← foldRange_split hassoc hz hz' x (h.le left) (by rw [hj]; exact h.le right)]
      · simp [ScanSt.step, hd, h.sum]
  | @assign c d =>
    refine ⟨fun e => ?_, fun e => ?_, h.undone, h.done⟩
    · by_cases he : e = c <;> simp [he, h.le]
    · by_cases he : e = c <;> simp [ScanSt.step, he, h.sum]

theorem ScanInv.steps (hassoc : ∀ x y w, f (f x y) w = f x (f y w)) (hcomm : ∀ x y, f x y = f y x)
    (hz : ∀ x, f z x = x) {a b n : Nat} (hr : Regions a b n) {x : Nat → α} {ss : List ScanStep} :
    ∀ {g g' : ScanGhost} {s : ScanSt α}, ScanInv f z a b n x g s → ScanGhost.Steps n g ss g' →
    ScanInv f z a b n x g' (ss.foldl (ScanSt.step f z a b) s) := by
  induction ss with
  | nil => intro g g' s h hs; cases hs; exact h
  | cons st ss ih =>
    intro g g' s h hs
    cases hs with
    | cons h1 h2 => exact ih (h.step hassoc hcomm hz hr h1) h2

/-- **C30.**  Let `f` be associative and commutative with neutral element `z`, and let the output
range coincide with the input range or be disjoint from it.  For every number of elements, every
input and every way `tbb::parallel_scan` splits, pre-scans, final-scans and joins the range, output
`i` is the combination of the first `i + 1` inputs. -/
theorem C30_parallel_prefix_sum (hassoc : ∀ x y w, f (f x y) w = f x (f y w))
    (hcomm : ∀ x y, f x y = f y x) (hz : ∀ x, f z x = x) {a b n : Nat}
    (hr : a = b ∨ a + n ≤ b ∨ b + n ≤ a) (mem : Nat → α) {steps : List ScanStep} {g : ScanGhost}
    (hs : ScanGhost.Steps n ScanGhost.init steps g) (hc : g.Complete n) :
    (∀ i < n, parallelPrefixSum f z a b n mem steps (b + i) =
      foldRange f z (fun i => mem (a + i)) 0 (i + 1)) ∧
    (∀ i < n, (run f z a b mem steps).mem (b + i) =
      foldRange f z (fun i => mem (a + i)) 0 (i + 1)) ∧
    (run f z a b mem steps).sum 0 = foldRange f z (fun i => mem (a + i)) 0 n := by
  have hinv : ScanInv f z a b n (fun i => mem (a + i)) g (run f z a b mem steps) :=
    ScanInv.steps hassoc hcomm hz hr ⟨fun _ => Nat.le_refl _, fun _ => (foldRange_self _ _).symm,
      fun _ _ _ => rfl, fun _ _ h => by simp [ScanGhost.init] at h⟩ hs
  have h2 : ∀ i < n, (run f z a b mem steps).mem (b + i) =
      foldRange f z (fun i => mem (a + i)) 0 (i + 1) := fun i hi => hinv.done i hi (hc.1 i hi)
  refine ⟨fun i hi => ?_, h2, ?_⟩
  · unfold parallelPrefixSum
    split
    · unfold sequential
      have := finLoop_eq (f := f) (z := z) (mem := mem) (x := fun i => mem (a + i)) (l := 0) hr n
        (by omega) (fun _ _ _ => rfl)
      rw [foldRange_self] at this
      rw [this]
      simp only
      rw [if_pos (by omega), show b + i - b + 1 = i + 1 by omega]
    · exact h2 i hi
  · rw [hinv.sum 0, hc.2]

end

theorem foldRange_add_eq_sum (x : Nat → Nat) (i : Nat) :
    foldRange (· + ·) 0 x 0 i = ((List.range i).map x).sum := by
  unfold foldRange
  rw [Nat.sub_zero, ← List.range_eq_range', List.sum_eq_foldl]

/-- **C30 for `TBBPrefixSum`** (in place, addition): afterwards `operator[](i)` is the sum of the
first `i` original values for every `i ≤ n`, `value(i)` is the original value and `total_sum()`
the sum of all. -/
theorem C30_tbb_prefix_sum {n : Nat} (x : Nat → Nat) {steps : List ScanStep} {g : ScanGhost}
    (hs : ScanGhost.Steps n ScanGhost.init steps g) (hc : g.Complete n) :
    (∀ i ≤ n, tbbIndex (run (· + ·) 0 0 0 x steps).mem i = ((List.range i).map x).sum) ∧
    (∀ i < n, tbbValue (run (· + ·) 0 0 0 x steps).mem i = x i) ∧
    (run (· + ·) 0 0 0 x steps).sum 0 = ((List.range n).map x).sum := by
  obtain ⟨_, h2, h3⟩ := C30_parallel_prefix_sum (f := (· + ·)) (z := 0) (a := 0) (b := 0)
    (Nat.add_assoc) Nat.add_comm Nat.zero_add (Or.inl rfl) x hs hc
  simp only [Nat.zero_add, foldRange_add_eq_sum] at h2 h3
  refine ⟨fun i hi => ?_, fun i hi => ?_, h3⟩
  · unfold tbbIndex
    split
    · next h => rw [h2 (i - 1) (by omega), show i - 1 + 1 = i by omega]
    · next h => simp [show i = 0 by omega]
  · unfold tbbValue
    split
    · next h =>
      rw [h2 i hi, h2 (i - 1) (by omega), show i - 1 + 1 = i by omega, List.range_succ]
      simp
    · next h => rw [show i = 0 by omega, h2 0 (by omega)]; simp

/-- A schedule with stealing: body 1 pre-scans `[2,4)` while body 0 final-scans `[0,2)`; body 1 is
then joined with body 0 and body 2 finalises. -/
def exSchedule : List ScanStep :=
  [.split 1, .pre 1 2 4, .fin 0 0 2, .assign 2 0, .join 1 0, .fin 2 2 4, .fin 1 4 5, .assign 0 1]

theorem exSchedule_legal : ∃ g, ScanGhost.Steps 5 ScanGhost.init exSchedule g ∧ g.Complete 5 := by
  refine ⟨_, .cons (.split 1 2) <| .cons (.pre rfl (by decide) (by decide) ?_) <|
    .cons (.fin rfl (by decide) (by decide) ?_) <| .cons .assign <|
    .cons (.join rfl) <| .cons (.fin rfl (by decide) (by decide) ?_) <|
    .cons (.fin rfl (by decide) (by decide) ?_) <| .cons .assign <| .nil _, ?_, rfl⟩
  · intros; rfl
  · intros; rfl
  · intro i h1 h2
    have : i = 2 ∨ i = 3 := by omega
    rcases this with h | h <;> subst h <;> rfl
  · intro i h1 h2
    have : i = 4 := by omega
    subst this; rfl
  · intro i hi
    have : i = 0 ∨ i = 1 ∨ i = 2 ∨ i = 3 ∨ i = 4 := by omega
    rcases this with h | h | h | h | h <;> subst h <;> rfl

/-- Non-vacuity (a test on one input): the schedule above on `3, 1, 4, 1, 5`. -/
example : (List.range 6).map (tbbIndex (run (· + ·) 0 0 0 (fun i => [3, 1, 4, 1, 5].getD i 0)
    exSchedule).mem) = [0, 3, 4, 8, 9, 14] := by decide

/-- The hypothesis that `f` is commutative cannot be dropped: `reverse_join` combines right before
left, so for list concatenation (associative, with neutral element) the very same schedule
gives a wrong result. -/
theorem C30_commutativity_needed : ∃ (f : List Nat → List Nat → List Nat) (mem : Nat → List Nat)
    (steps : List ScanStep) (g : ScanGhost),
    (∀ x y w, f (f x y) w = f x (f y w)) ∧ (∀ x, f [] x = x) ∧ (∀ x, f x [] = x) ∧
    ScanGhost.Steps 5 ScanGhost.init steps g ∧ g.Complete 5 ∧
    (run f [] 0 0 mem steps).mem 4 ≠ foldRange f [] mem 0 5 := by
  obtain ⟨g, h1, h2⟩ := exSchedule_legal
  exact ⟨(· ++ ·), fun i => [i], exSchedule, g, List.append_assoc, List.nil_append,
    List.append_nil, h1, h2, by decide⟩

end Verif
