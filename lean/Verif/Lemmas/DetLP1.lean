import Verif.Model.DetLP
import Mathlib.Tactic.SplitIfs
/-! # The prefix search returns the largest feasible pair of prefixes -/
namespace Verif
namespace DetLP

/-- `r` is the largest pair `(x, y)` with `F x y` in the given ranges, `none` if there is no such pair -/
def Best (F : Nat → Nat → Prop) (b1 e1 b2 e2 : Nat) : Option (Nat × Nat) → Prop
  | none => ∀ x y, b1 ≤ x → x ≤ e1 → b2 ≤ y → y ≤ e2 → ¬ F x y
  | some r => (b1 ≤ r.1 ∧ r.1 ≤ e1 ∧ b2 ≤ r.2 ∧ r.2 ≤ e2) ∧ F r.1 r.2 ∧
      ∀ x y, b1 ≤ x → x ≤ e1 → b2 ≤ y → y ≤ e2 → F x y → x ≤ r.1 ∧ y ≤ r.2

/-- the weights of the prefixes ascend -/
def MonoOn (P : Nat → Int) (i E : Nat) : Prop := ∀ x y, i ≤ x → x ≤ y → y ≤ E → P x ≤ P y

theorem lowerBound_spec (cum : Nat → Int) (v : Int) (b e : Nat) :
    (lowerBound cum v b e < e → v ≤ cum (lowerBound cum v b e)) ∧ ∀ p, b ≤ p → p < lowerBound cum v b e → p < e → cum p < v := by
  fun_induction lowerBound cum v b e with
  | case1 b h1 h2 => exact ⟨fun _ => h2, fun p _ _ => by omega⟩
  | case2 b h1 h2 ih =>
    refine ⟨ih.1, fun p hp hq he => ?_⟩
    rcases Nat.lt_or_ge b p with h | h
    · exact ih.2 p h hq he
    · have : p = b := by omega
      subst this; omega
  | case3 b h => exact ⟨fun h => by omega, fun p h1 h2 h3 => by omega⟩

variable {cum : Nat → Int} {i1 i2 E1 E2 : Nat} {lb ub : Int}

theorem prefW_succ (cum : Nat → Int) {i p : Nat} (h : i ≤ p) : prefW cum i (p + 1) = cum p := by
  unfold prefW; rw [if_neg (by omega)]; rfl

/-- Splitting a range: `(m, q)` separates the feasible pairs. -/
theorem best_split {F : Nat → Nat → Prop} {b1 e1 b2 e2 m q : Nat} {l r : Option (Nat × Nat)}
    (hm : b1 ≤ m ∧ m ≤ e1) (hq : b2 ≤ q ∧ q ≤ e2)
    (h1 : ∀ x y, m ≤ x → x ≤ e1 → b2 ≤ y → y ≤ q → F x y → (x = m ∧ y ≤ q) ∨ F x q)
    (h2 : ∀ x y, b1 ≤ x → x ≤ m → q ≤ y → y ≤ e2 → F x y → (x ≤ m ∧ y = q) ∨ F m y)
    (hl : Best F b1 m b2 q l) (hr : Best F m e1 q e2 r) : Best F b1 e1 b2 e2 (r.or l) := by
  cases r with
  | some r =>
    obtain ⟨⟨r1, r2, r3, r4⟩, r5, r6⟩ := hr
    refine ⟨⟨by omega, r2, by omega, r4⟩, r5, ?_⟩
    intro x y x1 x2 y1 y2 hF
    rcases Nat.lt_or_ge m x with h | h <;> rcases Nat.lt_or_ge q y with h' | h'
    · exact r6 x y (by omega) x2 (by omega) y2 hF
    · rcases h1 x y (by omega) x2 y1 h' hF with ⟨ha, _⟩ | ha
      · omega
      · have := r6 x q (by omega) x2 (by omega) (by omega) ha; omega
    · rcases h2 x y x1 (by omega) (by omega) y2 hF with ⟨_, ha⟩ | ha
      · omega
      · have := r6 m y (by omega) (by omega) (by omega) y2 ha; omega
    · omega
  | none =>
    have hno : ∀ x y, b1 ≤ x → x ≤ e1 → b2 ≤ y → y ≤ e2 → F x y → x ≤ m ∧ y ≤ q := by
      intro x y x1 x2 y1 y2 hF
      rcases Nat.lt_or_ge m x with h | h <;> rcases Nat.lt_or_ge q y with h' | h'
      · exact absurd hF (hr x y (by omega) x2 (by omega) y2)
      · rcases h1 x y (by omega) x2 y1 h' hF with ⟨ha, _⟩ | ha
        · omega
        · exact absurd ha (hr x q (by omega) x2 (by omega) (by omega))
      · rcases h2 x y x1 (by omega) (by omega) y2 hF with ⟨_, ha⟩ | ha
        · omega
        · exact absurd ha (hr m y (by omega) (by omega) (by omega) y2)
      · exact ⟨h, h'⟩
    cases l with
    | some l =>
      obtain ⟨⟨l1, l2, l3, l4⟩, l5, l6⟩ := hl
      refine ⟨⟨l1, by omega, l3, by omega⟩, l5, ?_⟩
      intro x y x1 x2 y1 y2 hF
      have := hno x y x1 x2 y1 y2 hF
      exact l6 x y x1 this.1 y1 this.2 hF
    | none =>
      intro x y x1 x2 y1 y2 hF
      have := hno x y x1 x2 y1 y2 hF
      exact hl x y x1 this.1 y1 this.2 hF

/-- feasible pairs have a common upper bound that is feasible -/
theorem feas_join (h1 : MonoOn (prefW cum i1) i1 E1) (h2 : MonoOn (prefW cum i2) i2 E2) {x y x' y' : Nat}
    (hx : i1 ≤ x ∧ x ≤ x' ∧ x' ≤ E1) (hy : i2 ≤ y' ∧ y' ≤ y ∧ y ≤ E2) (hF : feas cum i1 i2 lb ub x y) (hF' : feas cum i1 i2 lb ub x' y') :
    feas cum i1 i2 lb ub x' y := by
  unfold feas bal at *
  have a := h1 x x' hx.1 hx.2.1 hx.2.2
  have b := h2 y' y hy.1 hy.2.1 hy.2.2
  omega

theorem best_above (h1 : MonoOn (prefW cum i1) i1 E1) (h2 : MonoOn (prefW cum i2) i2 E2) {b1 e1 b2 e2 c1 c2 : Nat}
    (hb1 : i1 ≤ b1) (hb2 : i2 ≤ b2) (he1 : e1 ≤ E1) (he2 : e2 ≤ E2)
    (hc1 : b1 ≤ c1 ∧ c1 ≤ e1) (hc2 : b2 ≤ c2 ∧ c2 ≤ e2) (hF : feas cum i1 i2 lb ub c1 c2) {r : Option (Nat × Nat)}
    (hr : Best (feas cum i1 i2 lb ub) c1 e1 c2 e2 r) : Best (feas cum i1 i2 lb ub) b1 e1 b2 e2 r := by
  cases r with
  | none => exact absurd hF (hr c1 c2 (Nat.le_refl _) hc1.2 (Nat.le_refl _) hc2.2)
  | some r =>
    obtain ⟨⟨r1, r2, r3, r4⟩, r5, r6⟩ := hr
    refine ⟨⟨by omega, r2, by omega, r4⟩, r5, ?_⟩
    intro x y x1 x2 y1 y2 hxy
    rcases Nat.lt_or_ge x c1 with h | h <;> rcases Nat.lt_or_ge y c2 with h' | h'
    · omega
    · have := r6 c1 y (by omega) (by omega) h' y2 (feas_join h1 h2 ⟨by omega, by omega, by omega⟩ ⟨by omega, h', by omega⟩ hxy hF)
      omega
    · have := r6 x c2 h x2 (by omega) (by omega) (feas_join h1 h2 ⟨by omega, h, by omega⟩ ⟨by omega, by omega, by omega⟩ hF hxy)
      omega
    · exact r6 x y h x2 h' y2 hxy

theorem findSeq_best (h1 : MonoOn (prefW cum i1) i1 E1) (h2 : MonoOn (prefW cum i2) i2 E2) (hl : lb ≤ 0) (hu : 0 ≤ ub)
    (b1 e1 b2 e2 : Nat) (hb1 : i1 ≤ b1 ∧ b1 ≤ e1) (hb2 : i2 ≤ b2 ∧ b2 ≤ e2) (he1 : e1 ≤ E1) (he2 : e2 ≤ E2) :
    Best (feas cum i1 i2 lb ub) b1 e1 b2 e2 (findSeq cum i1 i2 lb ub b1 e1 b2 e2) := by
  fun_induction findSeq cum i1 i2 lb ub b1 e1 b2 e2 with
  | case1 e1 e2 hF => exact ⟨⟨hb1.2, Nat.le_refl _, hb2.2, Nat.le_refl _⟩, hF, fun x y _ hx _ hy _ => ⟨hx, hy⟩⟩
  | case2 e1 e2 hF hn hle =>
    intro x y x1 x2 y1 y2 hxy
    have := h1 x e1 (by omega) x2 he1
    have hy : y = e2 := by omega
    subst hy
    unfold feas bal at *; omega
  | case3 e1 e2 hF hn hle ih =>
    have ih := ih hb1 ⟨hb2.1, by omega⟩ he1 (by omega)
    have hkey : ∀ x, b1 ≤ x → x ≤ e1 → ¬ feas cum i1 i2 lb ub x e2 := by
      intro x x1 x2 hxy
      have := h1 x e1 (by omega) x2 he1
      unfold feas bal at *; omega
    generalize findSeq cum i1 i2 lb ub b1 e1 b2 (e2 - 1) = r at ih
    cases r with
    | none =>
      intro x y x1 x2 y1 y2 hxy
      rcases Nat.lt_or_ge y e2 with h | h
      · exact ih x y x1 x2 y1 (by omega) hxy
      · have : y = e2 := by omega
        subst this; exact hkey x x1 x2 hxy
    | some r =>
      obtain ⟨⟨r1, r2, r3, r4⟩, r5, r6⟩ := ih
      refine ⟨⟨r1, r2, r3, by omega⟩, r5, ?_⟩
      intro x y x1 x2 y1 y2 hxy
      rcases Nat.lt_or_ge y e2 with h | h
      · exact r6 x y x1 x2 y1 (by omega) hxy
      · have : y = e2 := by omega
        subst this; exact absurd hxy (hkey x x1 x2)
  | case4 e1 e2 hF hn hle =>
    intro x y x1 x2 y1 y2 hxy
    have := h2 y e2 (by omega) y2 he2
    have hx : x = e1 := by omega
    subst hx
    unfold feas bal at *; omega
  | case5 e1 e2 hF hn hle ih =>
    have ih := ih ⟨hb1.1, by omega⟩ hb2 (by omega) he2
    have hkey : ∀ y, b2 ≤ y → y ≤ e2 → ¬ feas cum i1 i2 lb ub e1 y := by
      intro y x1 x2 hxy
      have := h2 y e2 (by omega) x2 he2
      unfold feas bal at *; omega
    generalize findSeq cum i1 i2 lb ub b1 (e1 - 1) b2 e2 = r at ih
    cases r with
    | none =>
      intro x y x1 x2 y1 y2 hxy
      rcases Nat.lt_or_ge x e1 with h | h
      · exact ih x y x1 (by omega) y1 y2 hxy
      · have : x = e1 := by omega
        subst this; exact hkey y y1 y2 hxy
    | some r =>
      obtain ⟨⟨r1, r2, r3, r4⟩, r5, r6⟩ := ih
      refine ⟨⟨r1, by omega, r3, r4⟩, r5, ?_⟩
      intro x y x1 x2 y1 y2 hxy
      rcases Nat.lt_or_ge x e1 with h | h
      · exact r6 x y x1 (by omega) y1 y2 hxy
      · have : x = e1 := by omega
        subst this; exact absurd hxy (hkey y y1 y2)

theorem findRec_best (co : Nat) (h1 : MonoOn (prefW cum i1) i1 E1) (h2 : MonoOn (prefW cum i2) i2 E2) (hl : lb ≤ 0) (hu : 0 ≤ ub)
    (b1 e1 b2 e2 : Nat) (hb1 : i1 ≤ b1 ∧ b1 ≤ e1) (hb2 : i2 ≤ b2 ∧ b2 ≤ e2) (he1 : e1 ≤ E1) (he2 : e2 ≤ E2) :
    Best (feas cum i1 i2 lb ub) b1 e1 b2 e2 (findRec co cum i1 i2 lb ub b1 e1 b2 e2) := by
  induction hn : (e1 - b1) + (e2 - b2) using Nat.strong_induction_on generalizing b1 e1 b2 e2 with
  | _ n ih =>
  unfold findRec
  by_cases hsmall : e1 - b1 < co + 2 ∧ e2 - b2 < co + 2
  · rw [if_pos hsmall]; exact findSeq_best h1 h2 hl hu b1 e1 b2 e2 hb1 hb2 he1 he2
  rw [if_neg hsmall]
  by_cases hbig : e2 - b2 < e1 - b1
  · rw [if_pos hbig]
    dsimp only
    have hm1 : b1 ≤ b1 + (e1 - b1) / 2 := by omega
    have hm2 : b1 + (e1 - b1) / 2 < e1 := by omega
    generalize hm : b1 + (e1 - b1) / 2 = m at *
    have hq1 := le_lowerBound cum (cum m) b2 e2 hb2.2
    have hq2 := lowerBound_le cum (cum m) b2 e2
    obtain ⟨hs1, hs2⟩ := lowerBound_spec cum (cum m) b2 e2
    generalize lowerBound cum (cum m) b2 e2 = q at *
    have hcm := prefW_succ cum (i := i1) (p := m) (by omega)
    have hlow : b2 < q → prefW cum i2 q < prefW cum i1 (m + 1) := by
      intro h
      have := hs2 (q - 1) (by omega) (by omega) (by omega)
      rw [← prefW_succ cum (i := i2) (by omega), show q - 1 + 1 = q by omega] at this
      omega
    by_cases hf : q ≠ e2 ∧ m ≠ e1 ∧ feas cum i1 i2 lb ub (m + 1) (q + 1)
    · rw [if_pos hf]
      exact best_above h1 h2 hb1.1 hb2.1 he1 he2 ⟨by omega, by omega⟩ ⟨by omega, by omega⟩ hf.2.2
        (ih _ (by omega) (m + 1) e1 (q + 1) e2 ⟨by omega, by omega⟩ ⟨by omega, by omega⟩ he1 he2 rfl)
    rw [if_neg hf]
    by_cases hc : q = e2 ∧ ub < bal cum i1 i2 (m + 1) e2
    · rw [if_pos hc]
      obtain ⟨rfl, hc⟩ := hc
      have IH := ih _ (by omega) b1 m b2 q ⟨by omega, by omega⟩ hb2 (by omega) he2 rfl
      have hkey : ∀ x y, m < x → x ≤ e1 → b2 ≤ y → y ≤ q → ¬ feas cum i1 i2 lb ub x y := by
        intro x y x1 x2 y1 y2 hxy
        have a := h1 (m + 1) x (by omega) (by omega) (by omega)
        have b := h2 y q (by omega) y2 he2
        unfold feas bal at *; omega
      generalize findRec co cum i1 i2 lb ub b1 m b2 q = r at IH
      cases r with
      | none =>
        intro x y x1 x2 y1 y2 hxy
        rcases Nat.lt_or_ge m x with h | h
        · exact hkey x y h x2 y1 y2 hxy
        · exact IH x y x1 h y1 y2 hxy
      | some r =>
        obtain ⟨⟨r1, r2, r3, r4⟩, r5, r6⟩ := IH
        refine ⟨⟨r1, by omega, r3, r4⟩, r5, ?_⟩
        intro x y x1 x2 y1 y2 hxy
        rcases Nat.lt_or_ge m x with h | h
        · exact absurd hxy (hkey x y h x2 y1 y2)
        · exact r6 x y x1 h y1 y2 hxy
    rw [if_neg hc]
    refine best_split ⟨by omega, by omega⟩ ⟨by omega, by omega⟩ ?_ ?_ (ih _ (by omega) b1 m b2 q ⟨by omega, by omega⟩ ⟨by omega, by omega⟩ (by omega) (by omega) rfl)
      (ih _ (by omega) m e1 q e2 ⟨by omega, by omega⟩ ⟨by omega, by omega⟩ he1 he2 rfl)
    · intro x y x1 x2 y1 y2 hxy
      rcases Nat.lt_or_ge m x with h | h
      · right
        rcases Nat.lt_or_ge y q with h' | h'
        · have a := hlow (by omega)
          have b := h1 (m + 1) x (by omega) (by omega) (by omega)
          have c := h2 y q (by omega) (by omega) (by omega)
          unfold feas bal at *; omega
        · have : y = q := by omega
          subst this; exact hxy
      · left; omega
    · intro x y x1 x2 y1 y2 hxy
      rcases Nat.lt_or_ge q y with h | h
      · exfalso
        have hq : q ≠ e2 := by omega
        have hnf : ¬ feas cum i1 i2 lb ub (m + 1) (q + 1) := fun hh => hf ⟨hq, by omega, hh⟩
        have a := hs1 (by omega)
        rw [← prefW_succ cum (i := i2) (p := q) (by omega)] at a
        have b := h1 x (m + 1) (by omega) (by omega) (by omega)
        have c := h2 (q + 1) y (by omega) (by omega) (by omega)
        unfold feas bal at *; omega
      · left; omega
  · rw [if_neg hbig]
    dsimp only
    have hm1 : b2 ≤ b2 + (e2 - b2) / 2 := by omega
    have hm2 : b2 + (e2 - b2) / 2 < e2 := by omega
    generalize hm : b2 + (e2 - b2) / 2 = m at *
    have hq1 := le_lowerBound cum (cum m) b1 e1 hb1.2
    have hq2 := lowerBound_le cum (cum m) b1 e1
    obtain ⟨hs1, hs2⟩ := lowerBound_spec cum (cum m) b1 e1
    generalize lowerBound cum (cum m) b1 e1 = q at *
    have hcm := prefW_succ cum (i := i2) (p := m) (by omega)
    have hlow : b1 < q → prefW cum i1 q < prefW cum i2 (m + 1) := by
      intro h
      have := hs2 (q - 1) (by omega) (by omega) (by omega)
      rw [← prefW_succ cum (i := i1) (by omega), show q - 1 + 1 = q by omega] at this
      omega
    by_cases hf : q ≠ e1 ∧ m ≠ e2 ∧ feas cum i1 i2 lb ub (q + 1) (m + 1)
    · rw [if_pos hf]
      exact best_above h1 h2 hb1.1 hb2.1 he1 he2 ⟨by omega, by omega⟩ ⟨by omega, by omega⟩ hf.2.2
        (ih _ (by omega) (q + 1) e1 (m + 1) e2 ⟨by omega, by omega⟩ ⟨by omega, by omega⟩ he1 he2 rfl)
    rw [if_neg hf]
    by_cases hc : q = e1 ∧ bal cum i1 i2 e1 (m + 1) < lb
    · rw [if_pos hc]
      obtain ⟨rfl, hc⟩ := hc
      have IH := ih _ (by omega) b1 q b2 m hb1 ⟨by omega, by omega⟩ he1 (by omega) rfl
      have hkey : ∀ x y, b1 ≤ x → x ≤ q → m < y → y ≤ e2 → ¬ feas cum i1 i2 lb ub x y := by
        intro x y x1 x2 y1 y2 hxy
        have a := h2 (m + 1) y (by omega) (by omega) (by omega)
        have b := h1 x q (by omega) x2 he1
        unfold feas bal at *; omega
      generalize findRec co cum i1 i2 lb ub b1 q b2 m = r at IH
      cases r with
      | none =>
        intro x y x1 x2 y1 y2 hxy
        rcases Nat.lt_or_ge m y with h | h
        · exact hkey x y x1 x2 h y2 hxy
        · exact IH x y x1 x2 y1 h hxy
      | some r =>
        obtain ⟨⟨r1, r2, r3, r4⟩, r5, r6⟩ := IH
        refine ⟨⟨r1, r2, r3, by omega⟩, r5, ?_⟩
        intro x y x1 x2 y1 y2 hxy
        rcases Nat.lt_or_ge m y with h | h
        · exact absurd hxy (hkey x y x1 x2 h y2)
        · exact r6 x y x1 x2 y1 h hxy
    rw [if_neg hc]
    refine best_split (m := q) (q := m) ⟨by omega, by omega⟩ ⟨by omega, by omega⟩ ?_ ?_ (ih _ (by omega) b1 q b2 m ⟨by omega, by omega⟩ ⟨by omega, by omega⟩ (by omega) (by omega) rfl)
      (ih _ (by omega) q e1 m e2 ⟨by omega, by omega⟩ ⟨by omega, by omega⟩ he1 he2 rfl)
    · intro x y x1 x2 y1 y2 hxy
      rcases Nat.lt_or_ge q x with h | h
      · exfalso
        have hq : q ≠ e1 := by omega
        have hnf : ¬ feas cum i1 i2 lb ub (q + 1) (m + 1) := fun hh => hf ⟨hq, by omega, hh⟩
        have a := hs1 (by omega)
        rw [← prefW_succ cum (i := i1) (p := q) (by omega)] at a
        have b := h1 (q + 1) x (by omega) (by omega) (by omega)
        have c := h2 y (m + 1) (by omega) (by omega) (by omega)
        unfold feas bal at *; omega
      · left; omega
    · intro x y x1 x2 y1 y2 hxy
      rcases Nat.lt_or_ge m y with h | h
      · right
        rcases Nat.lt_or_ge x q with h' | h'
        · have a := hlow (by omega)
          have b := h2 (m + 1) y (by omega) (by omega) (by omega)
          have c := h1 x q (by omega) (by omega) (by omega)
          unfold feas bal at *; omega
        · have : x = q := by omega
          subst this; exact hxy
      · left; omega

/-- the answer is unique -/
theorem Best.unique {F : Nat → Nat → Prop} {b1 e1 b2 e2 : Nat} {r r' : Option (Nat × Nat)} (h : Best F b1 e1 b2 e2 r)
    (h' : Best F b1 e1 b2 e2 r') : r = r' := by
  cases r with
  | none => cases r' with
    | none => rfl
    | some r' =>
      obtain ⟨⟨a, b, c, d⟩, e, _⟩ := h'
      exact absurd e (h r'.1 r'.2 a b c d)
  | some r =>
    obtain ⟨⟨a, b, c, d⟩, e, f⟩ := h
    cases r' with
    | none => exact absurd e (h' r.1 r.2 a b c d)
    | some r' =>
      obtain ⟨⟨a', b', c', d'⟩, e', f'⟩ := h'
      have u := f r'.1 r'.2 a' b' c' d' e'
      have v := f' r.1 r.2 a b c d e
      congr 1
      exact Prod.ext (by omega) (by omega)

/-- any answer of the recursive search is feasible, also if the bounds exclude 0 -/
theorem findSeq_feas (b1 e1 b2 e2 : Nat) {r : Nat × Nat} (h : findSeq cum i1 i2 lb ub b1 e1 b2 e2 = some r)
    (hb1 : b1 ≤ e1) (hb2 : b2 ≤ e2) : feas cum i1 i2 lb ub r.1 r.2 ∧ b1 ≤ r.1 ∧ r.1 ≤ e1 ∧ b2 ≤ r.2 ∧ r.2 ≤ e2 := by
  fun_induction findSeq cum i1 i2 lb ub b1 e1 b2 e2 with
  | case1 e1 e2 hF => cases h; exact ⟨hF, hb1, Nat.le_refl _, hb2, Nat.le_refl _⟩
  | case2 => cases h
  | case3 e1 e2 hF hn hle ih => have := ih h hb1 (by omega); exact ⟨this.1, by omega, by omega, by omega, by omega⟩
  | case4 => cases h
  | case5 e1 e2 hF hn hle ih => have := ih h (by omega) hb2; exact ⟨this.1, by omega, by omega, by omega, by omega⟩

theorem findRec_feas (co b1 e1 b2 e2 : Nat) {r : Nat × Nat} (h : findRec co cum i1 i2 lb ub b1 e1 b2 e2 = some r)
    (hb1 : b1 ≤ e1) (hb2 : b2 ≤ e2) : feas cum i1 i2 lb ub r.1 r.2 ∧ b1 ≤ r.1 ∧ r.1 ≤ e1 ∧ b2 ≤ r.2 ∧ r.2 ≤ e2 := by
  induction hn : (e1 - b1) + (e2 - b2) using Nat.strong_induction_on generalizing b1 e1 b2 e2 with
  | _ n ih =>
  unfold findRec at h
  by_cases hsmall : e1 - b1 < co + 2 ∧ e2 - b2 < co + 2
  · rw [if_pos hsmall] at h; exact findSeq_feas b1 e1 b2 e2 h hb1 hb2
  rw [if_neg hsmall] at h
  by_cases hbig : e2 - b2 < e1 - b1
  · rw [if_pos hbig] at h
    dsimp only at h
    have hm1 : b1 ≤ b1 + (e1 - b1) / 2 := by omega
    have hm2 : b1 + (e1 - b1) / 2 < e1 := by omega
    generalize hm : b1 + (e1 - b1) / 2 = m at *
    have hq1 := le_lowerBound cum (cum m) b2 e2 hb2
    have hq2 := lowerBound_le cum (cum m) b2 e2
    generalize lowerBound cum (cum m) b2 e2 = q at *
    split_ifs at h with c1 c2
    · have := ih _ (by omega) _ _ _ _ h (by omega) (by omega) rfl; exact ⟨this.1, by omega, by omega, by omega, by omega⟩
    · have := ih _ (by omega) _ _ _ _ h (by omega) (by omega) rfl; exact ⟨this.1, by omega, by omega, by omega, by omega⟩
    · rcases Option.or_eq_some_iff.1 h with h | ⟨_, h⟩
      · have := ih _ (by omega) _ _ _ _ h (by omega) (by omega) rfl; exact ⟨this.1, by omega, by omega, by omega, by omega⟩
      · have := ih _ (by omega) _ _ _ _ h (by omega) (by omega) rfl; exact ⟨this.1, by omega, by omega, by omega, by omega⟩
  · rw [if_neg hbig] at h
    dsimp only at h
    have hm1 : b2 ≤ b2 + (e2 - b2) / 2 := by omega
    have hm2 : b2 + (e2 - b2) / 2 < e2 := by omega
    generalize hm : b2 + (e2 - b2) / 2 = m at *
    have hq1 := le_lowerBound cum (cum m) b1 e1 hb1
    have hq2 := lowerBound_le cum (cum m) b1 e1
    generalize lowerBound cum (cum m) b1 e1 = q at *
    split_ifs at h with c1 c2
    · have := ih _ (by omega) _ _ _ _ h (by omega) (by omega) rfl; exact ⟨this.1, by omega, by omega, by omega, by omega⟩
    · have := ih _ (by omega) _ _ _ _ h (by omega) (by omega) rfl; exact ⟨this.1, by omega, by omega, by omega, by omega⟩
    · rcases Option.or_eq_some_iff.1 h with h | ⟨_, h⟩
      · have := ih _ (by omega) _ _ _ _ h (by omega) (by omega) rfl; exact ⟨this.1, by omega, by omega, by omega, by omega⟩
      · have := ih _ (by omega) _ _ _ _ h (by omega) (by omega) rfl; exact ⟨this.1, by omega, by omega, by omega, by omega⟩

end DetLP
end Verif
