import Verif.Model.Balance
import Verif.Lemmas.Ieee
import Mathlib.Algebra.BigOperators.Group.List.Basic
import Mathlib.Algebra.Order.BigOperators.Group.List
import Mathlib.Tactic.NormNum
/-!
# C20: balance bounds and reported imbalance

For every rounding function with the properties `Rounding` (IEEE round-to-nearest has them:
`Ieee.rne_rounding`).  `u = 2^-53` is the unit roundoff.
-/
namespace Verif.Balance
open Verif.Ieee

theorem toInt_int (i : ℤ) : toInt (i : ℚ) = i := by unfold toInt; split <;> simp

theorem toInt_nonneg {x : ℚ} (h : 0 ≤ x) : toInt x = ⌊x⌋ := if_pos h

section
variable {fl : ℚ → ℚ} (hfl : Rounding fl)
include hfl

theorem fl_zero : fl 0 = 0 := by have := hfl.int 0 (by norm_num); simpa using this
theorem fl_one : fl 1 = 1 := by have := hfl.int 1 (by norm_num); simpa using this

theorem fl_nonneg {x : ℚ} (h : 0 ≤ x) : 0 ≤ fl x := by
  have := hfl.mono 0 x h; rwa [fl_zero hfl] at this

theorem fl_upper {x : ℚ} (h : 0 ≤ x) : fl x ≤ x + x / 2 ^ 53 := by
  have := hfl.err x
  rw [abs_of_nonneg h, abs_le] at this
  linarith [this.2]

theorem fl_lower {x : ℚ} (h : 0 ≤ x) : x - x / 2 ^ 53 ≤ fl x := by
  have := hfl.err x
  rw [abs_of_nonneg h, abs_le] at this
  linarith [this.1]

/-- division of 31-bit integers followed by `ceil` is exact -/
theorem ceil_div {total : ℤ} {k : ℕ} (h0 : 0 ≤ total) (ht : total < 2 ^ 31) (hk : 1 ≤ k) (hk' : k < 2 ^ 31) :
    ⌈fl ((total : ℚ) / k)⌉ = ⌈(total : ℚ) / k⌉ := by
  have hkq : (0 : ℚ) < k := by exact_mod_cast hk
  have hx0 : (0 : ℚ) ≤ (total : ℚ) / k := by positivity
  set x : ℚ := (total : ℚ) / k with hx
  have hxk : x * k = total := by rw [hx]; field_simp
  have hxt : x ≤ total := by
    rw [hx, div_le_iff₀ hkq]
    have : (1 : ℚ) ≤ k := by exact_mod_cast hk
    have h0q : (0 : ℚ) ≤ total := by exact_mod_cast h0
    nlinarith
  have htq : (total : ℚ) < 2 ^ 31 := by exact_mod_cast ht
  have hc := Int.ceil_le_floor_add_one x
  have hcx : ⌈x⌉ ≤ 2 ^ 31 := by
    rw [Int.ceil_le]; push_cast; linarith
  have hc0 : 0 ≤ ⌈x⌉ := Int.ceil_nonneg hx0
  -- upper bound
  have h1 : fl x ≤ (⌈x⌉ : ℤ) := by
    have := hfl.mono x (⌈x⌉ : ℤ) (Int.le_ceil x)
    rwa [hfl.int ⌈x⌉ (by rw [abs_of_nonneg hc0]; norm_num at hcx ⊢; omega)] at this
  -- lower bound
  have h2 : ((⌈x⌉ - 1 : ℤ) : ℚ) < fl x := by
    have hlow := fl_lower hfl hx0
    have hgap : ((⌈x⌉ - 1 : ℤ) : ℚ) + 1 / k ≤ x := by
      have : ((⌈x⌉ - 1 : ℤ) : ℚ) < x := by push_cast; linarith [Int.ceil_lt_add_one x]
      have h3 : (((⌈x⌉ - 1) * k : ℤ) : ℚ) < (total : ℤ) := by
        push_cast at this ⊢
        rw [← hxk]
        exact mul_lt_mul_of_pos_right this hkq
      have h4 : (⌈x⌉ - 1) * k + 1 ≤ total := by
        have : (⌈x⌉ - 1) * (k : ℤ) < total := by exact_mod_cast h3
        omega
      have h5 : ((⌈x⌉ : ℚ) - 1) * k + 1 ≤ total := by exact_mod_cast h4
      rw [hx, le_div_iff₀ hkq]
      push_cast
      rw [add_mul, div_mul_cancel₀ _ hkq.ne']
      exact h5
    have hk31 : (k : ℚ) < 2 ^ 31 := by exact_mod_cast hk'
    have hsmall : x / 2 ^ 53 < 1 / k := by
      rw [div_lt_div_iff₀ (by positivity) hkq, hxk]
      norm_num at htq ⊢
      linarith
    linarith
  apply le_antisymm
  · exact Int.ceil_le.2 h1
  · have : ⌈x⌉ - 1 < ⌈fl x⌉ := Int.lt_ceil.2 h2
    omega

end

/-- the perfectly balanced block weight is `ceil(total / k)`, exactly -/
theorem C20_perfect_weight {fl : ℚ → ℚ} (hfl : Rounding fl) {total : ℤ} {k : ℕ} (h0 : 0 ≤ total) (ht : total < 2 ^ 31) (hk : 1 ≤ k)
    (hk' : k < 2 ^ 31) (eps : ℚ) :
    (setupUniform fl k eps total).perfect = List.replicate k ⌈(total : ℚ) / k⌉ := by
  unfold setupUniform
  dsimp only
  rw [toInt_int, ceil_div hfl h0 ht hk hk']
  obtain ⟨j, rfl⟩ : ∃ j, k = j + 1 := ⟨k - 1, by omega⟩
  rfl

/-- the bound of a block -/
def bound (fl : ℚ → ℚ) (k : ℕ) (eps : ℚ) (total : ℤ) : ℤ := toInt (fl (fl (1 + eps) * (⌈(total : ℚ) / k⌉ : ℤ)))

/-- all blocks have the same bound -/
theorem C20_max_weights {fl : ℚ → ℚ} (hfl : Rounding fl) {total : ℤ} {k : ℕ} (h0 : 0 ≤ total) (ht : total < 2 ^ 31) (hk : 1 ≤ k)
    (hk' : k < 2 ^ 31) (eps : ℚ) :
    (setupUniform fl k eps total).maxw = List.replicate k (bound fl k eps total) := by
  unfold setupUniform bound
  dsimp only
  rw [toInt_int, ceil_div hfl h0 ht hk hk']
  obtain ⟨j, rfl⟩ : ∃ j, k = j + 1 := ⟨k - 1, by omega⟩
  rfl

theorem ceil_bounds {total : ℤ} {k : ℕ} (h0 : 0 ≤ total) (ht : total < 2 ^ 31) (hk : 1 ≤ k) :
    0 ≤ ⌈(total : ℚ) / k⌉ ∧ ⌈(total : ℚ) / k⌉ ≤ 2 ^ 31 ∧ total ≤ k * ⌈(total : ℚ) / k⌉ := by
  have hkq : (0 : ℚ) < k := by exact_mod_cast hk
  have h0q : (0 : ℚ) ≤ total := by exact_mod_cast h0
  have hx0 : (0 : ℚ) ≤ (total : ℚ) / k := by positivity
  refine ⟨Int.ceil_nonneg hx0, ?_, ?_⟩
  · rw [Int.ceil_le, div_le_iff₀ hkq]
    have h1 : (1 : ℚ) ≤ k := by exact_mod_cast hk
    have h2 : (total : ℚ) < 2 ^ 31 := by exact_mod_cast ht
    push_cast
    nlinarith
  · have := Int.le_ceil ((total : ℚ) / k)
    rw [div_le_iff₀ hkq] at this
    have h2 : total ≤ ⌈(total : ℚ) / k⌉ * (k : ℤ) := by exact_mod_cast this
    linarith [mul_comm (k : ℤ) ⌈(total : ℚ) / k⌉]

/-- **C20**: every bound is at least `ceil(total / k)` -/
theorem C20_bound_ge {fl : ℚ → ℚ} (hfl : Rounding fl) {total : ℤ} {k : ℕ} (h0 : 0 ≤ total) (ht : total < 2 ^ 31) (hk : 1 ≤ k)
    {eps : ℚ} (he : 0 ≤ eps) : ⌈(total : ℚ) / k⌉ ≤ bound fl k eps total := by
  obtain ⟨p0, p1, _⟩ := ceil_bounds h0 ht hk
  unfold bound
  set P := ⌈(total : ℚ) / k⌉
  have hPq : (0 : ℚ) ≤ (P : ℤ) := by exact_mod_cast p0
  have h1 : 1 ≤ fl (1 + eps) := by
    have := hfl.mono 1 (1 + eps) (by linarith)
    rwa [fl_one hfl] at this
  have h2 : ((P : ℤ) : ℚ) ≤ fl (1 + eps) * (P : ℤ) := by nlinarith
  have h3 : ((P : ℤ) : ℚ) ≤ fl (fl (1 + eps) * (P : ℤ)) := by
    have := hfl.mono _ _ h2
    rwa [hfl.int P (by rw [abs_of_nonneg p0]; norm_num at p1 ⊢; omega)] at this
  rw [toInt_nonneg (by linarith)]
  exact Int.le_floor.2 h3

/-- **C20**: the bounds are feasible: together they can hold the total weight -/
theorem C20_feasible {fl : ℚ → ℚ} (hfl : Rounding fl) {total : ℤ} {k : ℕ} (h0 : 0 ≤ total) (ht : total < 2 ^ 31) (hk : 1 ≤ k)
    (hk' : k < 2 ^ 31) {eps : ℚ} (he : 0 ≤ eps) :
    (setupUniform fl k eps total).maxw.length = k ∧ (∀ M ∈ (setupUniform fl k eps total).maxw, ⌈(total : ℚ) / k⌉ ≤ M) ∧
    total ≤ (setupUniform fl k eps total).maxw.sum := by
  have hb := C20_bound_ge hfl h0 ht hk he
  obtain ⟨p0, _, p2⟩ := ceil_bounds h0 ht hk
  rw [C20_max_weights hfl h0 ht hk hk']
  refine ⟨List.length_replicate, fun M hM => ?_, ?_⟩
  · rw [List.eq_of_mem_replicate hM]; exact hb
  · rw [List.sum_replicate, nsmul_eq_mul]
    have : (k : ℤ) * ⌈(total : ℚ) / k⌉ ≤ k * bound fl k eps total := mul_le_mul_of_nonneg_left hb (by positivity)
    linarith

/-- the bound is `(1 + eps) * ceil(total / k)` rounded down, up to a relative error of `2^-51` -/
theorem C20_bound_value {fl : ℚ → ℚ} (hfl : Rounding fl) {total : ℤ} {k : ℕ} (h0 : 0 ≤ total) (ht : total < 2 ^ 31) (hk : 1 ≤ k)
    {eps : ℚ} (he : 0 ≤ eps) :
    (bound fl k eps total : ℚ) ≤ (1 + eps) * ⌈(total : ℚ) / k⌉ * (1 + 1 / 2 ^ 51) ∧
    (1 + eps) * ⌈(total : ℚ) / k⌉ * (1 - 1 / 2 ^ 51) < bound fl k eps total + 1 := by
  obtain ⟨p0, p1, _⟩ := ceil_bounds h0 ht hk
  unfold bound
  set P := ⌈(total : ℚ) / k⌉
  have hPq : (0 : ℚ) ≤ (P : ℤ) := by exact_mod_cast p0
  have h1 : (0 : ℚ) ≤ 1 + eps := by linarith
  have h2 : (0 : ℚ) ≤ fl (1 + eps) := fl_nonneg hfl h1
  have h3 : (0 : ℚ) ≤ fl (1 + eps) * (P : ℤ) := mul_nonneg h2 hPq
  have u1 := fl_upper hfl h1
  have l1 := fl_lower hfl h1
  have u2 := fl_upper hfl h3
  have l2 := fl_lower hfl h3
  have hEP : (0 : ℚ) ≤ (1 + eps) * (P : ℤ) := mul_nonneg h1 hPq
  have u3 : fl (1 + eps) * (P : ℤ) ≤ (1 + eps) * (P : ℤ) * (1 + 1 / 2 ^ 53) := by
    have := mul_le_mul_of_nonneg_right u1 hPq
    linarith
  have l3 : (1 + eps) * (P : ℤ) * (1 - 1 / 2 ^ 53) ≤ fl (1 + eps) * (P : ℤ) := by
    have := mul_le_mul_of_nonneg_right l1 hPq
    linarith
  rw [toInt_nonneg (fl_nonneg hfl h3)]
  have f1 := Int.floor_le (fl (fl (1 + eps) * (P : ℤ)))
  have f2 := Int.lt_floor_add_one (fl (fl (1 + eps) * (P : ℤ)))
  generalize (1 + eps) * ((P : ℤ) : ℚ) = z at *
  generalize fl (1 + eps) * ((P : ℤ) : ℚ) = y at *
  constructor
  · norm_num at u2 u3 ⊢
    linarith
  · norm_num at l2 l3 ⊢
    linarith

/-! ### Reported imbalance -/

/-- the maximum taken by the loop -/
theorem foldl_max (f : ℕ → ℚ) (l : List ℕ) : ∀ m, (m ≤ l.foldl (fun m i => max m (f i)) m ∧ ∀ i ∈ l, f i ≤ l.foldl (fun m i => max m (f i)) m) ∧
    (l.foldl (fun m i => max m (f i)) m = m ∨ ∃ i ∈ l, l.foldl (fun m i => max m (f i)) m = f i) := by
  induction l with
  | nil => intro m; simp
  | cons a l ih =>
    intro m
    rw [List.foldl_cons]
    obtain ⟨⟨h1, h2⟩, h3⟩ := ih (max m (f a))
    refine ⟨⟨le_trans (le_max_left _ _) h1, fun i hi => ?_⟩, ?_⟩
    · rcases List.mem_cons.1 hi with rfl | hi
      · exact le_trans (le_max_right _ _) h1
      · exact h2 i hi
    · rcases h3 with h3 | ⟨i, hi, h3⟩
      · rcases max_choice m (f a) with e | e
        · left; rw [h3, e]
        · right; exact ⟨a, by simp, by rw [h3, e]⟩
      · right; exact ⟨i, List.mem_cons_of_mem _ hi, h3⟩

theorem imbalance_eq {fl : ℚ → ℚ} {k : ℕ} (hk : 1 ≤ k) (w : ℕ → ℤ) (P : ℤ) :
    (∃ i < k, imbalance fl k w (List.replicate k P) = fl (fl (w i / P) - 1)) ∧
    ∀ i < k, ∃ m, fl (w i / P) ≤ m ∧ imbalance fl k w (List.replicate k P) = fl (m - 1) := by
  have hg : ∀ i < k, (List.replicate k P).getD i 0 = P := by
    intro i hi
    rw [List.getD_eq_getElem?_getD, List.getElem?_replicate_of_lt hi]; rfl
  obtain ⟨⟨h1, h2⟩, h3⟩ := foldl_max (fun i => fl (w i / (List.replicate k P).getD i 0)) (List.range' 1 (k - 1))
    (fl (w 0 / (List.replicate k P).getD 0 0))
  unfold imbalance
  constructor
  · rcases h3 with h3 | ⟨i, hi, h3⟩
    · refine ⟨0, by omega, ?_⟩
      rw [h3, hg 0 (by omega)]
    · rw [List.mem_range'_1] at hi
      refine ⟨i, by omega, ?_⟩
      rw [h3, hg i (by omega)]
  · intro i hi
    refine ⟨_, ?_, rfl⟩
    rcases Nat.eq_zero_or_pos i with rfl | hp
    · have := h1; rw [hg 0 hi] at this ⊢; exact this
    · have := h2 i (by rw [List.mem_range'_1]; omega)
      rw [hg i hi] at this; exact this

/-- **C20**: if every block respects its bound, the reported imbalance exceeds epsilon by at most
`(1 + eps) * 2^-50` -/
theorem C20_balanced_imbalance {fl : ℚ → ℚ} (hfl : Rounding fl) {total : ℤ} {k : ℕ} (h0 : 0 < total) (ht : total < 2 ^ 31) (hk : 1 ≤ k)
    {eps : ℚ} (he : 0 ≤ eps) {w : ℕ → ℤ} (hw0 : ∀ i < k, 0 ≤ w i) (hw : ∀ i < k, w i ≤ bound fl k eps total) :
    imbalance fl k w (List.replicate k ⌈(total : ℚ) / k⌉) ≤ eps + (1 + eps) / 2 ^ 50 := by
  obtain ⟨⟨i, hi, h1⟩, _⟩ := imbalance_eq (fl := fl) hk w ⌈(total : ℚ) / k⌉
  rw [h1]
  have hkq : (0 : ℚ) < k := by exact_mod_cast hk
  have htq : (0 : ℚ) < total := by exact_mod_cast h0
  have hP : 0 < ⌈(total : ℚ) / k⌉ := Int.ceil_pos.2 (by positivity)
  obtain ⟨b1, _⟩ := C20_bound_value hfl (le_of_lt h0) ht hk he
  have hwb := hw i hi
  have hw0' := hw0 i hi
  set P := ⌈(total : ℚ) / k⌉
  have hPq : (0 : ℚ) < (P : ℤ) := by exact_mod_cast hP
  have hwq : (w i : ℚ) ≤ bound fl k eps total := by exact_mod_cast hwb
  have hr : (w i : ℚ) / P ≤ (1 + eps) * (1 + 1 / 2 ^ 51) := by
    rw [div_le_iff₀ hPq]
    linarith
  have hr0 : 0 ≤ (w i : ℚ) / P := by
    have : (0 : ℚ) ≤ w i := by exact_mod_cast hw0'
    positivity
  have u1 := fl_upper hfl hr0
  generalize fl ((w i : ℚ) / P) = y at u1
  generalize (w i : ℚ) / P = x at u1 hr hr0
  have hy : y ≤ (1 + eps) * (1 + 1 / 2 ^ 51) * (1 + 1 / 2 ^ 53) := by
    have : x + x / 2 ^ 53 = x * (1 + 1 / 2 ^ 53) := by ring
    rw [this] at u1
    exact le_trans u1 (mul_le_mul_of_nonneg_right hr (by norm_num))
  have hz : y - 1 ≤ eps + (1 + eps) * (1 / 2 ^ 51 + 1 / 2 ^ 53 + 1 / 2 ^ 104) := by
    norm_num at hy ⊢
    linarith
  have hz0 : 0 ≤ eps + (1 + eps) * (1 / 2 ^ 51 + 1 / 2 ^ 53 + 1 / 2 ^ 104) := by
    have : (0 : ℚ) ≤ 1 + eps := by linarith
    positivity
  have h2 := hfl.mono _ _ hz
  have h3 := fl_upper hfl hz0
  norm_num at h2 h3 ⊢
  linarith

/-- **C20**: if the reported imbalance is at most epsilon, no block exceeds its bound by more than one
unit of weight (given that the bound fits into 32 bits) -/
theorem C20_imbalance_within {fl : ℚ → ℚ} (hfl : Rounding fl) {total : ℤ} {k : ℕ} (h0 : 0 < total) (ht : total < 2 ^ 31) (hk : 1 ≤ k)
    {eps : ℚ} (he : 0 ≤ eps) (hM : bound fl k eps total < 2 ^ 31) {w : ℕ → ℤ} (hw0 : ∀ i < k, 0 ≤ w i)
    (hw : imbalance fl k w (List.replicate k ⌈(total : ℚ) / k⌉) ≤ eps) : ∀ i < k, w i ≤ bound fl k eps total + 1 := by
  intro i hi
  obtain ⟨m, hm, h1⟩ := (imbalance_eq (fl := fl) hk w ⌈(total : ℚ) / k⌉).2 i hi
  rw [h1] at hw
  have hkq : (0 : ℚ) < k := by exact_mod_cast hk
  have htq : (0 : ℚ) < total := by exact_mod_cast h0
  have hP : 0 < ⌈(total : ℚ) / k⌉ := Int.ceil_pos.2 (by positivity)
  obtain ⟨_, b2⟩ := C20_bound_value hfl (le_of_lt h0) ht hk he
  have hw0' := hw0 i hi
  by_contra hcon
  have hcon : bound fl k eps total + 2 ≤ w i := by omega
  set P := ⌈(total : ℚ) / k⌉
  have hPq : (0 : ℚ) < (P : ℤ) := by exact_mod_cast hP
  have hP1 : (1 : ℚ) ≤ (P : ℤ) := by exact_mod_cast hP
  have hconq : (bound fl k eps total : ℚ) + 2 ≤ w i := by exact_mod_cast hcon
  have hMq : (bound fl k eps total : ℚ) < 2 ^ 31 := by exact_mod_cast hM
  -- the quotient is large
  have hr0 : 0 ≤ (w i : ℚ) / P := by
    have : (0 : ℚ) ≤ w i := by exact_mod_cast hw0'
    positivity
  have l1 := fl_lower hfl hr0
  have hEP : (1 + eps) * (P : ℤ) ≤ 2 ^ 32 := by
    norm_num at b2 hMq ⊢
    linarith
  have hxP : ((w i : ℚ) / P) * P = w i := by field_simp
  generalize hx : (w i : ℚ) / P = x at hr0 l1 hm hxP
  have hm2 : x * (1 - 1 / 2 ^ 53) ≤ m := by
    have : x - x / 2 ^ 53 = x * (1 - 1 / 2 ^ 53) := by ring
    rw [← this]; linarith
  have hxE : (1 + eps) * (1 + 1 / 2 ^ 52) < x * (1 - 1 / 2 ^ 53) := by
    rw [← mul_lt_mul_iff_left₀ hPq]
    have e1 : x * (1 - 1 / 2 ^ 53) * (P : ℤ) = (w i : ℚ) * (1 - 1 / 2 ^ 53) := by rw [← hxP]; ring
    have e2 : (1 + eps) * (1 + 1 / 2 ^ 52) * ((P : ℤ) : ℚ) = (1 + eps) * (P : ℤ) * (1 + 1 / 2 ^ 52) := by ring
    rw [e1, e2]
    have hz0 : 0 ≤ (1 + eps) * ((P : ℤ) : ℚ) := by
      have : (0 : ℚ) ≤ 1 + eps := by linarith
      positivity
    generalize (1 + eps) * ((P : ℤ) : ℚ) = z at b2 hEP hz0
    norm_num at b2 hEP hconq ⊢
    linarith
  have hm1 : eps + (1 + eps) / 2 ^ 52 < m - 1 := by
    have : (1 + eps) * (1 + 1 / 2 ^ 52) = (1 + eps) + (1 + eps) / 2 ^ 52 := by ring
    linarith
  have hpos : 0 ≤ eps + (1 + eps) / 2 ^ 52 := by
    have : (0 : ℚ) ≤ 1 + eps := by linarith
    positivity
  have l2 := fl_lower hfl hpos
  have h3 := hfl.mono _ _ hm1.le
  norm_num at l2 h3 hw
  linarith

/-- the two notions of balance do not coincide exactly, in either direction.  Here: `eps = 0.03`, two
blocks of weight 103 and 97, bound 103; the reported imbalance is larger than `eps`. -/
theorem C20_imbalance_above_epsilon :
    bound rne 2 (rne (3 / 100)) 200 = 103 ∧
    rne (3 / 100) < imbalance rne 2 (fun i => if i = 0 then 103 else 97) (List.replicate 2 ⌈((200 : ℤ) : ℚ) / (2 : ℕ)⌉) := by
  constructor <;> decide +kernel

/-- ... and here the reported imbalance equals `eps` although a block of weight 15 exceeds its bound 14 -/
theorem C20_imbalance_below_epsilon :
    bound rne 2 (rne (15 / 11) - 1) 22 = 14 ∧
    imbalance rne 2 (fun i => if i = 0 then 15 else 7) (List.replicate 2 ⌈((22 : ℤ) : ℚ) / (2 : ℕ)⌉) ≤ rne (15 / 11) - 1 := by
  constructor <;> decide +kernel

/-! ### Individual block weights -/

/-- **C20**: individual block weights are rejected iff their sum is smaller than the total weight -/
theorem C20_individual_rejected (fl : ℚ → ℚ) (ws : List ℤ) (total : ℤ) : setupIndividual fl ws total = none ↔ ws.sum < total := by
  unfold setupIndividual
  dsimp only
  split <;> simp_all

theorem sum_map_le {ws : List ℤ} {f : ℤ → ℤ} (h : ∀ w ∈ ws, f w ≤ w) : (ws.map f).sum ≤ ws.sum := by
  induction ws with
  | nil => simp
  | cons a l ih =>
    rw [List.map_cons, List.sum_cons, List.sum_cons]
    have := h a (by simp)
    have := ih (fun w hw => h w (List.mem_cons_of_mem _ hw))
    omega

theorem sum_map_ge {ws : List ℤ} {f : ℤ → ℤ} {c : ℚ} (h : ∀ w ∈ ws, c * w ≤ f w) : c * ws.sum ≤ ((ws.map f).sum : ℤ) := by
  induction ws with
  | nil => simp
  | cons a l ih =>
    rw [List.map_cons, List.sum_cons, List.sum_cons]
    have := h a (by simp)
    have := ih (fun w hw => h w (List.mem_cons_of_mem _ hw))
    push_cast
    linarith

theorem sum_nonneg' {ws : List ℤ} (h : ∀ w ∈ ws, 0 ≤ w) : 0 ≤ ws.sum ∧ ∀ w ∈ ws, w ≤ ws.sum := by
  induction ws with
  | nil => simp
  | cons a l ih =>
    obtain ⟨h1, h2⟩ := ih (fun w hw => h w (List.mem_cons_of_mem _ hw))
    have ha := h a (by simp)
    rw [List.sum_cons]
    refine ⟨by omega, fun w hw => ?_⟩
    rcases List.mem_cons.1 hw with rfl | hw
    · omega
    · have := h2 w hw; omega

/-- **C20**: accepted individual block weights are kept; the target weights derived from them do not
exceed them, together can hold the total weight, and the derived epsilon lies between 0 and 0.99 -/
theorem C20_individual_accepted {fl : ℚ → ℚ} (hfl : Rounding fl) {ws : List ℤ} (hw : ∀ w ∈ ws, 0 ≤ w) {total : ℤ} (h0 : 0 ≤ total)
    (hs0 : 0 < ws.sum) (hs : ws.sum < 2 ^ 31) {p : PartWeights} (h : setupIndividual fl ws total = some p) :
    p.maxw = ws ∧ List.Forall₂ (· ≤ ·) p.perfect ws ∧ total ≤ p.perfect.sum ∧ p.perfect.sum ≤ ws.sum ∧ 0 ≤ p.eps ∧ p.eps ≤ fl (99 / 100) := by
  unfold setupIndividual at h
  dsimp only at h
  split at h
  · cases h
  rename_i hge
  have hge : total ≤ ws.sum := by omega
  cases h
  dsimp only
  have hsq : (0 : ℚ) < (ws.sum : ℤ) := by exact_mod_cast hs0
  have h0q : (0 : ℚ) ≤ (total : ℤ) := by exact_mod_cast h0
  have hgeq : (total : ℚ) ≤ (ws.sum : ℤ) := by exact_mod_cast hge
  have hx0 : 0 ≤ (total : ℚ) / (ws.sum : ℤ) := by positivity
  have hx1 : (total : ℚ) / (ws.sum : ℤ) ≤ 1 := by rw [div_le_one hsq]; exact hgeq
  have f0 := fl_nonneg hfl hx0
  have f1 : fl ((total : ℚ) / (ws.sum : ℤ)) ≤ 1 := by
    have := hfl.mono _ _ hx1; rwa [fl_one hfl] at this
  have fl1 := fl_lower hfl hx0
  have hxs : (total : ℚ) / (ws.sum : ℤ) * (ws.sum : ℤ) = total := by field_simp
  generalize hfr : fl ((total : ℚ) / (ws.sum : ℤ)) = frac at *
  generalize (total : ℚ) / (ws.sum : ℤ) = x at *
  obtain ⟨_, hmem⟩ := sum_nonneg' hw
  -- each target weight
  have hup : ∀ w ∈ ws, toInt ⌈fl (frac * w)⌉ ≤ w := by
    intro w hww
    rw [toInt_int]
    have hwq : (0 : ℚ) ≤ (w : ℤ) := by exact_mod_cast hw w hww
    have h1 : frac * w ≤ (w : ℤ) := by nlinarith
    have h2 := hfl.mono _ _ h1
    have hle := hmem w hww
    rw [hfl.int w (by rw [abs_of_nonneg (hw w hww)]; norm_num at hs ⊢; omega)] at h2
    exact Int.ceil_le.2 h2
  have hlow : ∀ w ∈ ws, x * (1 - 1 / 2 ^ 52) * w ≤ (toInt ⌈fl (frac * w)⌉ : ℤ) := by
    intro w hww
    rw [toInt_int]
    have hwq : (0 : ℚ) ≤ (w : ℤ) := by exact_mod_cast hw w hww
    have h1 := Int.le_ceil (fl (frac * w))
    have h2 := fl_lower hfl (mul_nonneg f0 hwq)
    have h3 : x * (1 - 1 / 2 ^ 53) * w ≤ frac * w := by
      apply mul_le_mul_of_nonneg_right _ hwq
      have : x - x / 2 ^ 53 = x * (1 - 1 / 2 ^ 53) := by ring
      linarith
    have hxw : 0 ≤ x * w := mul_nonneg hx0 hwq
    have e1 : x * (1 - 1 / 2 ^ 53) * (w : ℚ) = x * w * (1 - 1 / 2 ^ 53) := by ring
    have e2 : x * (1 - 1 / 2 ^ 52) * (w : ℚ) = x * w * (1 - 1 / 2 ^ 52) := by ring
    rw [e1] at h3
    rw [e2]
    generalize x * (w : ℚ) = y at *
    generalize frac * (w : ℚ) = z at *
    norm_num at *
    linarith
  have hsum_le := sum_map_le hup
  have hsum_ge := sum_map_ge (c := x * (1 - 1 / 2 ^ 52)) hlow
  have htot : total ≤ (ws.map (fun (w : ℤ) => toInt ⌈fl (frac * w)⌉)).sum := by
    have e : x * (1 - 1 / 2 ^ 52) * (ws.sum : ℤ) = total * (1 - 1 / 2 ^ 52) := by rw [← hxs]; ring
    rw [e] at hsum_ge
    have hsq31 : (total : ℚ) < 2 ^ 31 := by
      have : total < 2 ^ 31 := by omega
      exact_mod_cast this
    have h1 : (total : ℚ) - 1 < ((ws.map (fun (w : ℤ) => toInt ⌈fl (frac * w)⌉)).sum : ℤ) := by
      norm_num at hsum_ge hsq31 ⊢
      linarith
    have h2 : total - 1 < (ws.map (fun (w : ℤ) => toInt ⌈fl (frac * w)⌉)).sum := by exact_mod_cast h1
    omega
  refine ⟨rfl, ?_, htot, hsum_le, ?_, min_le_left _ _⟩
  · rw [List.forall₂_map_left_iff]
    exact List.forall₂_same.2 hup
  · apply le_min
    · exact fl_nonneg hfl (by norm_num)
    · apply fl_nonneg hfl
      have h1 : (1 : ℚ) ≤ (ws.sum : ℤ) / (max (ws.map (fun (w : ℤ) => toInt ⌈fl (frac * w)⌉)).sum 1 : ℤ) := by
        have hm : (max (ws.map (fun (w : ℤ) => toInt ⌈fl (frac * w)⌉)).sum 1) ≤ ws.sum := by omega
        have hm0 : (0 : ℚ) < (max (ws.map (fun (w : ℤ) => toInt ⌈fl (frac * w)⌉)).sum 1 : ℤ) := by
          have : (0 : ℤ) < max (ws.map (fun (w : ℤ) => toInt ⌈fl (frac * w)⌉)).sum 1 := by omega
          exact_mod_cast this
        rw [le_div_iff₀ hm0, one_mul]
        exact_mod_cast hm
      have := hfl.mono _ _ h1
      rw [fl_one hfl] at this
      linarith

/-! ### `isBalanced` -/

theorem balanceLoop_spec (w : ℕ → ℤ) (maxw : List ℤ) (l : List ℕ) : ∀ e,
    balanceLoop w maxw l e = if ∀ i ∈ l, w i ≤ maxw.getD i 0 then some (e + (l.filter (fun i => decide (w i = 0))).length) else none := by
  induction l with
  | nil => intro e; simp [balanceLoop]
  | cons a l ih =>
    intro e
    rw [balanceLoop]
    by_cases ha : w a > maxw.getD a 0
    · rw [if_pos ha, if_neg (by intro h; have := h a (by simp); omega)]
    · rw [if_neg ha, ih]
      have hle : w a ≤ maxw.getD a 0 := by omega
      have hiff : (∀ i ∈ a :: l, w i ≤ maxw.getD i 0) ↔ ∀ i ∈ l, w i ≤ maxw.getD i 0 :=
        ⟨fun h i hi => h i (List.mem_cons_of_mem _ hi), fun h i hi => by
          rcases List.mem_cons.1 hi with rfl | hi
          · exact hle
          · exact h i hi⟩
      simp only [hiff]
      by_cases hz : w a = 0
      · rw [if_pos hz, List.filter_cons_of_pos (by simpa using hz), List.length_cons]
        congr 2
        omega
      · rw [if_neg hz, List.filter_cons_of_neg (by simpa using hz)]

/-- `isBalanced`: every block respects its bound, and (unless the large k preset is used) there are at
most as many empty blocks as removed nodes -/
theorem C20_is_balanced (k : ℕ) (w : ℕ → ℤ) (maxw : List ℤ) (largeK : Bool) (removed : ℕ) :
    isBalanced k w maxw largeK removed = true ↔
      (∀ i < k, w i ≤ maxw.getD i 0) ∧ (largeK = true ∨ ((List.range k).filter (fun i => decide (w i = 0))).length ≤ removed) := by
  unfold isBalanced
  rw [balanceLoop_spec]
  by_cases hall : ∀ i ∈ List.range k, w i ≤ maxw.getD i 0
  · rw [if_pos hall]
    simp only [List.mem_range] at hall
    simp only [Nat.zero_add, Bool.or_eq_true, decide_eq_true_eq]
    tauto
  · rw [if_neg hall]
    simp only [List.mem_range] at hall
    simp only [Bool.false_eq_true, false_iff]
    tauto

/-- concrete case: 10 units of weight in 3 blocks with epsilon 0.03 -/
theorem C20_example : (setupUniform rne 3 (rne (3 / 100)) 10).maxw = [4, 4, 4] := by decide +kernel

end Verif.Balance
