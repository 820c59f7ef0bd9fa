import Verif.Spec.Ieee
/-!
# Rounding to nearest
-/
namespace Verif.Ieee

theorem nearestEven_err (r : ℚ) : |(nearestEven r : ℚ) - r| ≤ 1 / 2 := by
  have h1 := Int.floor_le r
  have h2 := Int.lt_floor_add_one r
  unfold nearestEven
  dsimp only
  split_ifs <;> push_cast <;> rw [abs_le] <;> constructor <;> linarith

theorem nearestEven_int (i : ℤ) : nearestEven (i : ℚ) = i := by
  unfold nearestEven
  simp

theorem nearestEven_bounds (r : ℚ) : ⌊r⌋ ≤ nearestEven r ∧ nearestEven r ≤ ⌊r⌋ + 1 := by
  unfold nearestEven
  dsimp only
  split_ifs <;> omega

theorem nearestEven_mono {r s : ℚ} (h : r ≤ s) : nearestEven r ≤ nearestEven s := by
  have hf : ⌊r⌋ ≤ ⌊s⌋ := Int.floor_mono h
  have hr := nearestEven_bounds r
  have hs := nearestEven_bounds s
  by_cases hlt : ⌊r⌋ < ⌊s⌋
  · omega
  · have e : ⌊r⌋ = ⌊s⌋ := by omega
    unfold nearestEven
    dsimp only
    rw [e]
    split_ifs <;> first | omega | (exfalso; linarith)

theorem ulp_pos (x : ℚ) : 0 < ulp x := by unfold ulp; exact zpow_pos (by norm_num) _

theorem le_ulp {x : ℚ} (hx : 0 < x) : 2 ^ 52 * ulp x ≤ x ∧ x < 2 ^ 53 * ulp x := by
  have h1 := Int.zpow_log_le_self (b := 2) (by norm_num) hx
  have h2 := Int.lt_zpow_succ_log_self (b := 2) (by norm_num) x
  have e1 : (2 : ℚ) ^ 52 * ulp x = (2 : ℚ) ^ (Int.log 2 x) := by
    unfold ulp
    rw [← zpow_natCast, ← zpow_add₀ (by norm_num)]
    congr 1
    push_cast
    ring
  have e2 : (2 : ℚ) ^ 53 * ulp x = (2 : ℚ) ^ (Int.log 2 x + 1) := by
    unfold ulp
    rw [← zpow_natCast, ← zpow_add₀ (by norm_num)]
    congr 1
    push_cast
    ring
  rw [e1, e2]
  push_cast at h1 h2
  exact ⟨h1, h2⟩

theorem scaled {x : ℚ} (hx : 0 < x) : 2 ^ 52 ≤ x / ulp x ∧ x / ulp x < 2 ^ 53 := by
  obtain ⟨h1, h2⟩ := le_ulp hx
  have hu := ulp_pos x
  rw [le_div_iff₀ hu, div_lt_iff₀ hu]
  exact ⟨h1, h2⟩

theorem rne_pos_bounds {x : ℚ} (hx : 0 < x) : 2 ^ 52 * ulp x ≤ rne x ∧ rne x ≤ 2 ^ 53 * ulp x := by
  obtain ⟨h1, h2⟩ := scaled hx
  have hu := ulp_pos x
  unfold rne
  rw [if_pos hx]
  constructor
  · apply mul_le_mul_of_nonneg_right _ hu.le
    have := nearestEven_mono h1
    have e : nearestEven ((2 : ℚ) ^ 52) = 2 ^ 52 := by
      have := nearestEven_int (2 ^ 52)
      rwa [Int.cast_pow, Int.cast_ofNat] at this
    rw [e] at this
    exact_mod_cast this
  · apply mul_le_mul_of_nonneg_right _ hu.le
    have := nearestEven_mono h2.le
    have e : nearestEven ((2 : ℚ) ^ 53) = 2 ^ 53 := by
      have := nearestEven_int (2 ^ 53)
      rwa [Int.cast_pow, Int.cast_ofNat] at this
    rw [e] at this
    exact_mod_cast this

theorem rne_neg {x : ℚ} (hx : x < 0) : rne x = - rne (-x) := by
  unfold rne
  rw [if_neg (by linarith), if_pos hx, if_pos (by linarith)]

theorem rne_zero : rne 0 = 0 := by unfold rne; simp

theorem rne_pos {x : ℚ} (hx : 0 < x) : 0 < rne x := by
  have := (rne_pos_bounds hx).1
  have hu := ulp_pos x
  have : 0 < 2 ^ 52 * ulp x := by positivity
  linarith

theorem rne_mono_pos {x y : ℚ} (hx : 0 < x) (h : x ≤ y) : rne x ≤ rne y := by
  have hy : 0 < y := by linarith
  have hl : Int.log 2 x ≤ Int.log 2 y := Int.log_mono_right hx h
  rcases lt_or_eq_of_le hl with hlt | heq
  · have h1 := (rne_pos_bounds hx).2
    have h2 := (rne_pos_bounds hy).1
    have h3 : (2 : ℚ) ^ 53 * ulp x ≤ 2 ^ 52 * ulp y := by
      have e : (2 : ℚ) ^ (Int.log 2 x + 1 - 52) ≤ ulp y := by
        unfold ulp
        exact zpow_le_zpow_right₀ (by norm_num) (by omega)
      have e2 : (2 : ℚ) ^ (Int.log 2 x + 1 - 52) = 2 * ulp x := by
        unfold ulp
        rw [show Int.log 2 x + 1 - 52 = 1 + (Int.log 2 x - 52) by ring, zpow_add₀ (by norm_num), zpow_one]
      rw [e2] at e
      linarith
    linarith
  · have hu : ulp x = ulp y := by unfold ulp; rw [heq]
    unfold rne
    rw [if_pos hx, if_pos hy, hu]
    apply mul_le_mul_of_nonneg_right _ (ulp_pos y).le
    have := nearestEven_mono (div_le_div_of_nonneg_right h (ulp_pos y).le)
    exact_mod_cast this

theorem rne_mono (x y : ℚ) (h : x ≤ y) : rne x ≤ rne y := by
  rcases lt_trichotomy x 0 with hx | hx | hx
  · rw [rne_neg hx]
    rcases lt_trichotomy y 0 with hy | hy | hy
    · rw [rne_neg hy]
      have := rne_mono_pos (x := -y) (y := -x) (by linarith) (by linarith)
      linarith
    · subst hy
      rw [rne_zero]
      have := rne_pos (x := -x) (by linarith)
      linarith
    · have h1 := rne_pos (x := -x) (by linarith)
      have h2 := rne_pos hy
      linarith
  · subst hx
    rw [rne_zero]
    rcases lt_or_eq_of_le h with hy | hy
    · exact (rne_pos hy).le
    · rw [← hy, rne_zero]
  · exact rne_mono_pos hx h

theorem rne_err_pos {x : ℚ} (hx : 0 < x) : |rne x - x| ≤ x / 2 ^ 53 := by
  have hu := ulp_pos x
  unfold rne
  rw [if_pos hx]
  have e := nearestEven_err (x / ulp x)
  have h1 := (le_ulp hx).1
  have : (nearestEven (x / ulp x) : ℚ) * ulp x - x = ((nearestEven (x / ulp x) : ℚ) - x / ulp x) * ulp x := by
    field_simp
  rw [this, abs_mul, abs_of_pos hu]
  have h2 : |(nearestEven (x / ulp x) : ℚ) - x / ulp x| * ulp x ≤ 1 / 2 * ulp x := mul_le_mul_of_nonneg_right e hu.le
  have h3 : 1 / 2 * ulp x ≤ x / 2 ^ 53 := by
    rw [le_div_iff₀ (by positivity)]
    have : (2 : ℚ) ^ 53 = 2 * 2 ^ 52 := by norm_num
    rw [this]
    linarith
  linarith

theorem rne_err (x : ℚ) : |rne x - x| ≤ |x| / 2 ^ 53 := by
  rcases lt_trichotomy x 0 with hx | hx | hx
  · rw [rne_neg hx, abs_of_neg hx]
    have := rne_err_pos (x := -x) (by linarith)
    rw [show -rne (-x) - x = -(rne (-x) - -x) by ring, abs_neg]
    exact this
  · subst hx; rw [rne_zero]; simp
  · rw [abs_of_pos hx]; exact rne_err_pos hx

theorem rne_int_pos {i : ℤ} (h0 : 0 < i) (h : i ≤ 2 ^ 53) : rne i = i := by
  have hx : (0 : ℚ) < i := by exact_mod_cast h0
  unfold rne
  rw [if_pos hx]
  have hl : Int.log 2 (i : ℚ) ≤ 53 := by
    have h1 : (i : ℚ) ≤ (2 : ℕ) ^ (53 : ℤ) := by
      have : (i : ℚ) ≤ 2 ^ 53 := by exact_mod_cast h
      simpa using this
    have := Int.log_mono_right (b := 2) hx h1
    rw [Int.log_zpow (by norm_num)] at this
    exact this
  have hu := ulp_pos (i : ℚ)
  rcases Nat.lt_or_ge 0 0 with h00 | _
  · omega
  by_cases hc : Int.log 2 (i : ℚ) ≤ 52
  · have hk : ∃ k : ℤ, (i : ℚ) / ulp i = k := by
      obtain ⟨m, hm⟩ := Int.eq_ofNat_of_zero_le (show 0 ≤ 52 - Int.log 2 (i : ℚ) by omega)
      refine ⟨i * 2 ^ m, ?_⟩
      unfold ulp
      rw [show Int.log 2 (i : ℚ) - 52 = -(m : ℤ) by omega, zpow_neg, div_inv_eq_mul, zpow_natCast]
      push_cast
      ring
    obtain ⟨k, hk⟩ := hk
    rw [hk, nearestEven_int, ← hk]
    field_simp
  · have hl53 : Int.log 2 (i : ℚ) = 53 := by omega
    have h53 : (i : ℚ) = 2 ^ 53 := by
      have := Int.zpow_log_le_self (b := 2) (by norm_num) hx
      rw [hl53] at this
      have h2 : (i : ℚ) ≤ 2 ^ 53 := by exact_mod_cast h
      have h3 : ((2 : ℕ) : ℚ) ^ (53 : ℤ) = 2 ^ 53 := by norm_num
      rw [h3] at this
      linarith
    have hk : (i : ℚ) / ulp i = ((2 ^ 52 : ℤ) : ℚ) := by
      unfold ulp
      rw [hl53, h53]
      norm_num
    rw [hk, nearestEven_int, ← hk]
    field_simp

/-- IEEE rounding has the properties used below -/
theorem rne_rounding : Rounding rne := by
  refine ⟨rne_mono, fun i hi => ?_, rne_err⟩
  rcases lt_trichotomy i 0 with h | h | h
  · have hx : (i : ℚ) < 0 := by exact_mod_cast h
    rw [abs_of_neg h] at hi
    rw [rne_neg hx]
    have := rne_int_pos (i := -i) (by omega) hi
    push_cast at this
    rw [this]; ring
  · subst h; simpa using rne_zero
  · rw [abs_of_pos h] at hi
    exact rne_int_pos h hi

end Verif.Ieee
